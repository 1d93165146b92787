import Verif.Lemmas.Fleet
import Verif.Props.C54_EndToEnd

/-!
# C83: several processes on one table

Processes share the store: version manifest and table files. One of them writes, flushes and compacts; any number of
others open the table and read, at any time and as often as they like.
-/

set_option linter.unusedSectionVars false

namespace Tonbo.Props.C83
open Tonbo.Model Tonbo.Model.Manifest Tonbo.Model.Planner Tonbo.Model.Lsm Tonbo.Model.Fleet Tonbo.Spec
open Tonbo.Lemmas.Lsm Tonbo.Lemmas.Fleet Tonbo.Lemmas.Manifest

variable {K R : Type} [LinearOrder K]

/-- The store and the processes after a history that starts with a new table. -/
def after (ext : R → Option K) (x : Exec K R) (cap t sv : Nat) (ops : List (Nat × Act K R)) : Fleet K R :=
  (Fleet.run ext x t (Fleet.Fleet.new cap t sv) ops).2

/-- No write of the history failed. -/
def AllWritten (ext : R → Option K) (x : Exec K R) (cap t sv : Nat) (ops : List (Nat × Act K R)) : Prop :=
  (Fleet.run ext x t (Fleet.Fleet.new cap t sv) ops).1 = true

/-- Merges read the rows and the deletions of every table in step (C15). -/
def AllFit (ext : R → Option K) (x : Exec K R) (cap t sv w : Nat) (ops : List (Nat × Act K R)) : Prop :=
  ∀ l e, EverListed ((after ext x cap t sv ops).db w) t l e →
    ∀ f, (after ext x cap t sv ops).files ⟨l, e.id⟩ = some f → Fits x.readRows f

/-! ## Helpers -/

theorem new_db (cap t sv w : Nat) : (Fleet.Fleet.new cap t sv : Fleet K R).db w = Db.new cap t sv := rfl

theorem new_blank (cap t sv p : Nat) : Blank ((Fleet.Fleet.new cap t sv : Fleet K R).procs p) := ⟨⟨cap, rfl⟩, rfl, rfl, rfl⟩

theorem after_db {w : Nat} {ops : List (Nat × Act K R)} (ext : R → Option K) (x : Exec K R) (cap t sv : Nat) (h : OneWriter w ops) :
    (after ext x cap t sv ops).db w = reached ext x cap t sv (timed 0 (doneBy w ops)) :=
  (writer_alone ext x t w ops _ h).2

theorem sessions_flatten (ext : R → Option K) : ∀ (l : List (Lsm.Op K R)) (sofar : List (Ver K R)),
    (sessionsFrom ext sofar l).flatten = sofar ++ logOf ext l
  | [], sofar => by simp [sessionsFrom, logOf]
  | o :: l, sofar => by
    rw [logOf_cons]
    by_cases h : isReopen o = false
    · rw [sessionsFrom_cons ext _ _ _ h, sessions_flatten ext l, List.append_assoc]
    · cases o with
      | reopen cap =>
        change (sofar :: sessionsFrom ext [] l).flatten = _
        rw [List.flatten_cons, sessions_flatten ext l]
        rfl
      | _ => simp [isReopen] at h

theorem beginnings_sub {parts ls : List (List (Ver K R))} (h : Beginnings parts ls) {u : Ver K R} (hu : u ∈ parts.flatten) :
    u ∈ ls.flatten := by
  induction h with
  | nil => exact hu
  | cons h1 _ ih =>
    rw [List.flatten_cons] at hu ⊢
    rcases List.mem_append.1 hu with hu | hu
    · exact List.mem_append_left _ (h1.subset hu)
    · exact List.mem_append_right _ (ih hu)

/-- Versions behind which there is a newer one may be left out. -/
theorem scan_refine {D P : Ver K R → Prop} {rts : Nat} {rows : List (K × R)} (h : IsScan D rts rows) (h1 : ∀ u, D u → P u)
    (h2 : ∀ w, P w → ∃ u, D u ∧ u.key = w.key ∧ w.ts ≤ u.ts) (hf : Functional P) (hts : ∀ w, P w → w.ts ≤ rts) :
    IsScan P rts rows := by
  refine ⟨h.1, fun k v => (h.2 k v).trans ?_⟩
  constructor
  · rintro ⟨ts, hw, hle, hmax⟩
    refine ⟨ts, h1 _ hw, hle, fun u hu hk _ => ?_⟩
    obtain ⟨u', hu', k1, k2⟩ := h2 u hu
    exact Nat.le_trans k2 (hmax u' hu' (k1.trans hk) (hts _ (h1 _ hu')))
  · rintro ⟨ts, hw, hle, hmax⟩
    obtain ⟨u, hu, k1, k2⟩ := h2 _ hw
    have h3 := hmax u (h1 u hu) k1 (hts _ (h1 u hu))
    have hts' : u.ts = ts := Nat.le_antisymm h3 k2
    have hop : u.op = .put v := hf u ⟨k, ts, .put v⟩ (h1 u hu) hw k1 hts'
    obtain ⟨uk, ut, uo⟩ := u
    simp only at k1 hts' hop
    subst k1
    subst hts'
    subst hop
    exact ⟨_, hu, hle, fun u hu hk hut => hmax u (h1 u hu) hk hut⟩

/-- What the store holds after a history of one writer. -/
theorem reader_state (ext : R → Option K) (x : Exec K R) (hn : 0 < x.readRows) (cap t sv w : Nat)
    (ops : List (Nat × Act K R)) (h1 : OneWriter w ops) (hok : AllWritten ext x cap t sv ops)
    (hf : Functional (· ∈ (lives ext w ops).flatten)) (hfit : AllFit ext x cap t sv w ops) :
    ∃ n Q pc logs cur, Inv ext x t n ((after ext x cap t sv ops).db w) ∧
      Front ext t n ((after ext x cap t sv ops).db w) (Q.flatten ++ pc) logs cur ∧
      Beginnings (Q ++ [pc]) (lives ext w ops) ∧
      (lives ext w ops).getLast? = some (pc ++ restOf ((after ext x cap t sv ops).db w) logs cur) := by
  have e := after_db ext x cap t sv h1
  have hok' : (Lsm.run ext x t (Db.new cap t sv) (timed 0 (doneBy w ops))).1 = true := by
    rw [← hok]
    exact (writer_alone ext x t w ops (Fleet.Fleet.new cap t sv) h1).1.symm
  have hfit' : Fitting x.readRows t (Lsm.run ext x t (Db.new cap t sv) (timed 0 (doneBy w ops))).2 := by
    intro l en hen f hff
    refine hfit l en ?_ f ?_
    · rw [e]
      exact everListed_iff.2 hen
    · have : (after ext x cap t sv ops).files = ((after ext x cap t sv ops).db w).files := rfl
      rw [this, e]
      exact hff
  unfold lives at hf
  rw [sessions_flatten] at hf
  obtain ⟨n, Q, pc, logs, cur, g1, g2, g3, g4, _⟩ := front_run hn (timed 0 (doneBy w ops)) (P := []) (pc := []) (sofar := [])
    (by simpa using front_new ext cap t sv) (inv_new ext x cap t sv) (by simp [restOf]) hf hfit' hok'
  rw [e]
  rw [List.nil_append] at g2
  exact ⟨n, Q, pc, logs, cur, g1, g2, g3, g4⟩

/-- A scan of the store by a reader. -/
theorem reader_scans {ext : R → Option K} {x : Exec K R} {t n : Nat} {s : Fleet K R} {w p : Nat} {pre : List (Ver K R)}
    {logs : List (List (Ver K R))} {cur : List (Ver K R)} (hi : Inv ext x t n (s.db w))
    (hc : Front ext t n (s.db w) pre logs cur) (hf : Functional (· ∈ pre)) (hb : Blank (s.procs p)) (rts : Nat) :
    ∃ out, readAt t s p rts = some out ∧ IsScan (OnDisk t n (s.db w)) rts (rowsOf out) := by
  obtain ⟨cap, e⟩ := reader_scan t rts s p w hb
  obtain ⟨out, o1, o2⟩ := C54.scan_of_state (inv_blank hi cap) (cont_blank hc cap) hf rts
  refine ⟨out, by rw [e]; exact o1, ?_⟩
  have : (fun u => u ∈ ([] : List (List (Ver K R))).flatten ∨ u ∈ ([] : List (Ver K R)) ∨
      OnDisk t n { s.db w with runs := Mem.Runs.new cap, flushing := .idle, jobs := [] } u) = OnDisk t n (s.db w) := by
    funext u
    simp [OnDisk]
  rw [this] at o2
  exact o2

/-! ## The theorems -/

/-- **C83.** The writer does not notice the readers: the store, and what the writer reads, are what they would be if
no other process had ever opened the table. -/
theorem the_writer_does_not_notice_readers (ext : R → Option K) (x : Exec K R) (cap t sv w : Nat)
    (ops : List (Nat × Act K R)) (h : OneWriter w ops) :
    let s := after ext x cap t sv ops
    let s' := after ext x cap t sv (ops.filter (fun o => o.1 = w))
    s.kv = s'.kv ∧ s.files = s'.files ∧ s.gc = s'.gc ∧ readNow t s w = readNow t s' w ∧
      ∀ rts, readAt t s w rts = readAt t s' w rts := by
  have h' : OneWriter w (ops.filter (fun o => o.1 = w)) := by
    intro p hp o ho ho1
    rw [List.mem_filter] at ho
    simp only [decide_eq_true_eq] at ho
    exact absurd (ho1.symm.trans ho.2) hp
  have hd : doneBy w (ops.filter (fun o => o.1 = w)) = doneBy w ops := by
    unfold doneBy
    rw [List.filter_filter]
    simp
  have e1 := after_db ext x cap t sv h
  have e2 := after_db ext x cap t sv h'
  rw [hd, ← e1] at e2
  have hclock : ((after ext x cap t sv ops).procs w).clock = ((after ext x cap t sv (ops.filter (fun o => o.1 = w))).procs w).clock := by
    unfold after
    rw [clock_run ext x t w ops, clock_run ext x t w, hd]
  have hk := congrArg Db.kv e2
  have hfl := congrArg Db.files e2
  have hg := congrArg Db.gc e2
  refine ⟨hk.symm, hfl.symm, hg.symm, ?_, fun rts => ?_⟩
  · unfold readNow readAt
    rw [hclock, e2]
  · unfold readAt
    rw [e2]

/-- **C83 (partial).** A reader in another process that asks for a timestamp not before the newest write gets, at any
time, exactly the rows visible in what the writer has flushed: of the writes of every life of the writer a beginning. If
the writer has nothing in memory it is everything the writer wrote in its present life.

Missing: writes of different lives that disagree about one key at one timestamp (they do:
`a_restarted_writer_hides_its_own_writes`), failed writes (C04), tables that a merge reads out of step (C15), more than one
process that flushes or compacts (`two_writers_lose_rows`, `a_second_compactor_breaks_old_versions`), logs. -/
theorem a_reader_sees_what_was_flushed_partial (ext : R → Option K) (x : Exec K R) (hn : 0 < x.readRows) (cap t sv w p : Nat)
    (hp : p ≠ w) (ops : List (Nat × Act K R)) (h1 : OneWriter w ops) (hok : AllWritten ext x cap t sv ops)
    (hf : Functional (· ∈ (lives ext w ops).flatten)) (hfit : AllFit ext x cap t sv w ops)
    (rts : Nat) (hts : ∀ u ∈ (lives ext w ops).flatten, u.ts ≤ rts) :
    ∃ parts, Beginnings parts (lives ext w ops) ∧
      (NothingInMemory ((after ext x cap t sv ops).procs w) → parts.getLast? = (lives ext w ops).getLast?) ∧
      ∃ out, readAt t (after ext x cap t sv ops) p rts = some out ∧ IsScan (· ∈ parts.flatten) rts (rowsOf out) := by
  obtain ⟨n, Q, pc, logs, cur, g1, g2, g3, g4⟩ := reader_state ext x hn cap t sv w ops h1 hok hf hfit
  have hsub : ∀ u ∈ (Q ++ [pc]).flatten, u ∈ (lives ext w ops).flatten := fun u hu => beginnings_sub g3 hu
  have hfl : (Q ++ [pc]).flatten = Q.flatten ++ pc := by simp
  refine ⟨Q ++ [pc], g3, fun hm => ?_, ?_⟩
  · rw [g4, rest_nil g2 hm.1 hm.2]
    simp
  · have hpf : Functional (· ∈ Q.flatten ++ pc) := by
      rw [← hfl]
      exact fun a b ha hb => hf a b (hsub a ha) (hsub b hb)
    obtain ⟨out, o1, o2⟩ := reader_scans (p := p) g1 g2 hpf (reader_blank ext x t p ops _ (h1 p hp) (new_blank cap t sv p)) rts
    refine ⟨out, o1, ?_⟩
    rw [hfl]
    refine scan_refine o2 ?_ (fun u hu => g2.cover u hu) hpf (fun u hu => hts u (hsub u (by rw [hfl]; exact hu)))
    rintro u ⟨v, l, e, f, a1, a2, a3, a4⟩
    exact g2.listed l e ⟨n, v, a1, a2⟩ f a3 u a4

/-- **C83 (partial).** While the writer has never been restarted, its writes never disagree. Once all of them are
flushed, a reader sees all of them. -/
theorem a_reader_sees_everything_once_flushed_partial (ext : R → Option K) (x : Exec K R) (hn : 0 < x.readRows)
    (cap t sv w p : Nat) (hp : p ≠ w) (ops : List (Nat × Act K R)) (h1 : OneWriter w ops) (hl : OneLife w ops)
    (hok : AllWritten ext x cap t sv ops) (hfit : AllFit ext x cap t sv w ops)
    (hm : NothingInMemory ((after ext x cap t sv ops).procs w))
    (rts : Nat) (hts : ∀ u ∈ (lives ext w ops).flatten, u.ts ≤ rts) :
    ∃ out, readAt t (after ext x cap t sv ops) p rts = some out ∧
      IsScan (· ∈ (lives ext w ops).flatten) rts (rowsOf out) := by
  have hno : ∀ c, Act.enter c ∉ doneBy w ops := fun c hc => hl c (doneBy_mem.1 hc)
  have hlv : lives ext w ops = [logOf ext (timed 0 (doneBy w ops))] := by
    unfold lives
    rw [sessions_one ext _ _ _ hno, List.nil_append]
  have hf : Functional (· ∈ (lives ext w ops).flatten) := by
    rw [hlv, List.flatten_singleton]
    exact (one_life_functional ext _ 0 hno).2
  obtain ⟨parts, g1, g2, g3⟩ := a_reader_sees_what_was_flushed_partial ext x hn cap t sv w p hp ops h1 hok hf hfit rts hts
  have g2 := g2 hm
  have : parts = lives ext w ops := by
    rw [hlv] at g1 g2 ⊢
    cases g1 with
    | cons a b =>
      cases b
      simp only [List.getLast?_singleton, Option.some.injEq] at g2
      rw [g2]
  rw [this] at g3
  exact g3

theorem timed_append : ∀ (l m : List (Act K R)) (c : Nat),
    timed c (l ++ m) = timed c l ++ timed (l.foldl (fun c a => a.clock c) c) m
  | [], _, _ => rfl
  | a :: l, m, c => by
    rw [List.cons_append, timed_cons, timed_cons, timed_append l m, List.cons_append, List.foldl_cons]

theorem sessions_append (ext : R → Option K) : ∀ (l m : List (Lsm.Op K R)) (sofar : List (Ver K R)),
    ∃ init last, sessionsFrom ext sofar l = init ++ [last] ∧ sessionsFrom ext sofar (l ++ m) = init ++ sessionsFrom ext last m
  | [], m, sofar => ⟨[], sofar, rfl, rfl⟩
  | o :: l, m, sofar => by
    by_cases h : isReopen o = false
    · rw [List.cons_append, sessionsFrom_cons ext _ _ _ h, sessionsFrom_cons ext _ _ _ h]
      exact sessions_append ext l m _
    · cases o with
      | reopen cap =>
        obtain ⟨init, last, h1, h2⟩ := sessions_append ext l m []
        exact ⟨sofar :: init, last, congrArg (sofar :: ·) h1, congrArg (sofar :: ·) h2⟩
      | _ => simp [isReopen] at h

theorem lsm_run_append (ext : R → Option K) (x : Exec K R) (t : Nat) : ∀ (l m : List (Lsm.Op K R)) (s : Db K R),
    Lsm.run ext x t s (l ++ m) =
      ((Lsm.run ext x t s l).1 && (Lsm.run ext x t (Lsm.run ext x t s l).2 m).1, (Lsm.run ext x t (Lsm.run ext x t s l).2 m).2)
  | [], m, s => by simp [Lsm.run]
  | o :: l, m, s => by
    have h := lsm_run_append ext x t l m (Lsm.step ext x t s o).2
    change ((Lsm.step ext x t s o).1 && (Lsm.run ext x t (Lsm.step ext x t s o).2 (l ++ m)).1,
      (Lsm.run ext x t (Lsm.step ext x t s o).2 (l ++ m)).2) = _
    rw [h, ← Bool.and_assoc]
    rfl

/-- **C83 (partial).** What a reader sees only grows: of every life of the writer it sees at least what it, or
any other reader, saw before. -/
theorem what_readers_see_only_grows_partial (ext : R → Option K) (x : Exec K R) (hn : 0 < x.readRows) (cap t sv w p q : Nat)
    (hp : p ≠ w) (hq : q ≠ w) (ops more : List (Nat × Act K R)) (h1 : OneWriter w (ops ++ more))
    (hok : AllWritten ext x cap t sv (ops ++ more))
    (hf : Functional (· ∈ (lives ext w (ops ++ more)).flatten)) (hfit : AllFit ext x cap t sv w (ops ++ more))
    (rts : Nat) (hts : ∀ u ∈ (lives ext w (ops ++ more)).flatten, u.ts ≤ rts) :
    ∃ parts parts', Beginnings parts (lives ext w ops) ∧ Beginnings parts' (lives ext w (ops ++ more)) ∧ Grows parts parts' ∧
      (∃ out, readAt t (after ext x cap t sv ops) p rts = some out ∧ IsScan (· ∈ parts.flatten) rts (rowsOf out)) ∧
      ∃ out, readAt t (after ext x cap t sv (ops ++ more)) q rts = some out ∧ IsScan (· ∈ parts'.flatten) rts (rowsOf out) := by
  have h1a : OneWriter w ops := fun r hr o ho => h1 r hr o (List.mem_append_left _ ho)
  have hd : doneBy w (ops ++ more) = doneBy w ops ++ doneBy w more := by simp [doneBy]
  have ea := after_db ext x cap t sv h1a
  have eb := after_db ext x cap t sv h1
  rw [hd, timed_append] at eb
  generalize ha : timed 0 (doneBy w ops) = A at ea eb
  generalize hb : timed ((doneBy w ops).foldl (fun c a => a.clock c) 0) (doneBy w more) = B at eb
  have hlA : lives ext w ops = sessionsFrom ext [] A := by unfold lives; rw [ha]
  have hlB : lives ext w (ops ++ more) = sessionsFrom ext [] (A ++ B) := by
    unfold lives
    rw [hd, timed_append, ha, hb]
  have hokab : (Lsm.run ext x t (Db.new cap t sv) (A ++ B)).1 = true := by
    have := (writer_alone ext x t w (ops ++ more) (Fleet.Fleet.new cap t sv) h1).1
    rw [hd, new_db] at this
    have e0 : ((Fleet.Fleet.new cap t sv : Fleet K R).procs w).clock = 0 := rfl
    rw [e0, timed_append, ha, hb] at this
    rw [← this]
    exact hok
  unfold reached at ea eb
  rw [lsm_run_append] at hokab eb
  simp only [Bool.and_eq_true] at hokab
  obtain ⟨init, last, hs1, hs2⟩ := sessions_append ext A B []
  have hflat := sessions_flatten ext (A ++ B) []
  have hlog : logOf ext (A ++ B) = logOf ext A ++ logOf ext B := by unfold logOf; rw [List.flatMap_append]
  rw [List.nil_append, hlog] at hflat
  have hfB : Fitting x.readRows t (Lsm.run ext x t (Lsm.run ext x t (Db.new cap t sv) A).2 B).2 := by
    intro l en hen f hff
    refine hfit l en ?_ f ?_
    · rw [eb]
      exact everListed_iff.2 hen
    · have : (after ext x cap t sv (ops ++ more)).files = ((after ext x cap t sv (ops ++ more)).db w).files := rfl
      rw [this, eb]
      exact hff
  rw [hlB, hflat] at hf hts
  obtain ⟨nk, hik, _⟩ := keeps_run hn A (inv_new ext x cap t sv)
  obtain ⟨nk2, hik2, hk2⟩ := keeps_run hn B hik
  have hfA : Fitting x.readRows t (Lsm.run ext x t (Db.new cap t sv) A).2 := fitting_back hik hk2 hfB
  obtain ⟨n, Q, pc, logs, cur, g1, g2, g3, g4, _⟩ := front_run hn A (P := []) (pc := []) (sofar := [])
    (by simpa using front_new ext cap t sv) (inv_new ext x cap t sv) (by simp [restOf])
    (fun a b ha hb => hf a b (List.mem_append_left _ ha) (List.mem_append_left _ hb)) hfA hokab.1
  rw [List.nil_append] at g2
  rw [hs1, List.getLast?_concat, Option.some.injEq] at g4
  have hlast : ∀ u ∈ last, u ∈ logOf ext A := by
    intro u hu
    have := sessions_flatten ext A []
    rw [List.nil_append] at this
    rw [← this, hs1]
    simp [hu]
  obtain ⟨n', Q', pc', logs', cur', k1, k2, k3, k4, k5⟩ := front_run hn B g2 g1 g4
    (fun a b ha hb => hf a b
      (by rcases List.mem_append.1 ha with h | h
          · exact List.mem_append_left _ (hlast a h)
          · exact List.mem_append_right _ h)
      (by rcases List.mem_append.1 hb with h | h
          · exact List.mem_append_left _ (hlast b h)
          · exact List.mem_append_right _ h)) hfB hokab.2
  rw [hs1] at g3
  have hlen : Q.length = init.length := by
    have := g3.length_eq
    simpa using this
  have gQ : List.Forall₂ (· <+: ·) Q init := by
    have := List.forall₂_take Q.length g3
    rw [List.take_left, hlen, List.take_left] at this
    exact this
  have hB1 : Beginnings (Q ++ [pc]) (lives ext w ops) := by rw [hlA, hs1]; exact g3
  have hB2 : Beginnings (Q ++ (Q' ++ [pc'])) (lives ext w (ops ++ more)) := by
    rw [hlB, hs2]
    exact List.rel_append gQ k3
  have hsub1 : ∀ u ∈ (Q ++ [pc]).flatten, u ∈ logOf ext A ++ logOf ext B := by
    intro u hu
    have := beginnings_sub hB1 hu
    rw [hlA, sessions_flatten, List.nil_append] at this
    exact List.mem_append_left _ this
  have hsub2 : ∀ u ∈ (Q ++ (Q' ++ [pc'])).flatten, u ∈ logOf ext A ++ logOf ext B := by
    intro u hu
    have := beginnings_sub hB2 hu
    rwa [hlB, hflat] at this
  have hfl1 : (Q ++ [pc]).flatten = Q.flatten ++ pc := by simp
  have hfl2 : (Q ++ (Q' ++ [pc'])).flatten = (Q ++ Q').flatten ++ pc' := by simp
  refine ⟨Q ++ [pc], Q ++ (Q' ++ [pc']), hB1, hB2, ?_, ?_, ?_⟩
  · intro i a hi
    rcases Nat.lt_or_ge i Q.length with hlt | hge
    · rw [List.getElem?_append_left hlt] at hi ⊢
      exact ⟨a, hi, List.prefix_refl _⟩
    · rw [List.getElem?_append_right hge] at hi ⊢
      have h0 : i - Q.length = 0 := by
        have := (List.getElem?_eq_some_iff.1 hi).1
        simp only [List.length_singleton] at this
        omega
      rw [h0] at hi ⊢
      simp only [List.getElem?_cons_zero, Option.some.injEq] at hi
      subst hi
      cases hb : (Q' ++ [pc'])[0]? with
      | none => simp at hb
      | some b => exact ⟨b, rfl, k5 b (by rw [List.head?_eq_getElem?]; exact hb)⟩
  · rw [← ea] at g1 g2
    have hpf : Functional (· ∈ Q.flatten ++ pc) := by
      rw [← hfl1]
      exact fun a b ha hb => hf a b (hsub1 a ha) (hsub1 b hb)
    obtain ⟨out, o1, o2⟩ := reader_scans (p := p) g1 g2 hpf (reader_blank ext x t p ops _ (h1a p hp) (new_blank cap t sv p)) rts
    refine ⟨out, o1, ?_⟩
    rw [hfl1]
    refine scan_refine o2 ?_ (fun u hu => g2.cover u hu) hpf (fun u hu => hts u (hsub1 u (by rw [hfl1]; exact hu)))
    rintro u ⟨v, l, e, f, a1, a2, a3, a4⟩
    exact g2.listed l e ⟨n, v, a1, a2⟩ f a3 u a4
  · rw [← eb] at k1 k2
    have hpf : Functional (· ∈ (Q ++ Q').flatten ++ pc') := by
      rw [← hfl2]
      exact fun a b ha hb => hf a b (hsub2 a ha) (hsub2 b hb)
    obtain ⟨out, o1, o2⟩ := reader_scans (p := q) k1 k2 hpf (reader_blank ext x t q (ops ++ more) _ (h1 q hq) (new_blank cap t sv q)) rts
    refine ⟨out, o1, ?_⟩
    rw [hfl2]
    refine scan_refine o2 ?_ (fun u hu => k2.cover u hu) hpf (fun u hu => hts u (hsub2 u (by rw [hfl2]; exact hu)))
    rintro u ⟨v, l, e, f, a1, a2, a3, a4⟩
    exact k2.listed l e ⟨n', v, a1, a2⟩ f a3 u a4

/-! ## Where it fails -/

/-- The default read of a process that only reads is a read at timestamp zero, for ever, whatever all the others do. -/
theorem a_reader_reads_at_the_beginning_of_time (ext : R → Option K) (x : Exec K R) (cap t sv p : Nat)
    (ops : List (Nat × Act K R)) (h : OnlyReads p ops) :
    readNow t (after ext x cap t sv ops) p = readAt t (after ext x cap t sv ops) p 0 := by
  have hb := reader_blank ext x t p ops _ h (new_blank cap t sv p)
  unfold readNow after
  rw [hb.2.1]

/-- So it never returns a row that was not written by the first commit of a life of the writer, although all of them may
have been flushed long ago. -/
theorem a_reader_sees_first_commits_only (ext : R → Option K) (x : Exec K R) (hn : 0 < x.readRows) (cap t sv w p : Nat)
    (hp : p ≠ w) (ops : List (Nat × Act K R)) (h1 : OneWriter w ops) (hok : AllWritten ext x cap t sv ops)
    (hf : Functional (· ∈ (lives ext w ops).flatten)) (hfit : AllFit ext x cap t sv w ops) :
    ∃ out, readNow t (after ext x cap t sv ops) p = some out ∧
      ∀ k v, (k, v) ∈ rowsOf out → ⟨k, 0, .put v⟩ ∈ (lives ext w ops).flatten := by
  obtain ⟨n, Q, pc, logs, cur, g1, g2, g3, g4⟩ := reader_state ext x hn cap t sv w ops h1 hok hf hfit
  have hfl : (Q ++ [pc]).flatten = Q.flatten ++ pc := by simp
  have hsub : ∀ u ∈ Q.flatten ++ pc, u ∈ (lives ext w ops).flatten := fun u hu => beginnings_sub g3 (by rw [hfl]; exact hu)
  obtain ⟨out, o1, o2⟩ := reader_scans (p := p) g1 g2 (fun a b ha hb => hf a b (hsub a ha) (hsub b hb))
    (reader_blank ext x t p ops _ (h1 p hp) (new_blank cap t sv p)) 0
  refine ⟨out, by rw [a_reader_reads_at_the_beginning_of_time ext x cap t sv p ops (h1 p hp)]; exact o1, fun k v hkv => ?_⟩
  obtain ⟨ts, ⟨v', l, e, f, a1, a2, a3, a4⟩, hle, _⟩ := (o2.2 k v).1 hkv
  have : ts = 0 := Nat.le_zero.1 hle
  rw [← this]
  exact hsub _ (g2.listed l e ⟨n, v', a1, a2⟩ f a3 _ a4)

/-- Two processes that open the table at the same moment give their next table the same name. -/
theorem two_processes_take_the_same_name (ext : R → Option K) (x : Exec K R) (t p q cap cap' k : Nat) (hpq : p ≠ q)
    (s : Fleet K R) (ha : allocator s.kv t = .ok k) :
    let s' := (Fleet.run ext x t s [(p, .enter cap), (q, .enter cap')]).2
    (s'.procs p).next = k ∧ (s'.procs q).next = k := by
  simp only [Fleet.run, Fleet.step, Act.op, Lsm.step, Lsm.reopen, Fleet.Fleet.db, ha, Fleet.Fleet.set]
  simp [hpq]

section Example
open C38 (exX exExt)

def flushAct (p : Nat) : List (Nat × Act Nat Nat) := [(p, .freeze), (p, .flush 9 none), (p, .publish), (p, .drain)]

def exFleet (ops : List (Nat × Act Nat Nat)) : Fleet Nat Nat := after exExt exX 4 1 0 ops

example : allocator (Fleet.Fleet.new 4 1 0 : Fleet Nat Nat).kv 1 = .ok 1 := rfl

/-- Process 1 writes two commits and flushes; process 2 opens the table before and after; then a third commit, which
is not flushed; a compaction. -/
def exFlushed : List (Nat × Act Nat Nat) :=
  [(2, .enter 4), (1, .put [11, 21])] ++ flushAct 1 ++ [(1, .put [12, 31]), (3, .enter 2), (1, .del [2])] ++ flushAct 1 ++
  [(1, .start ⟨0, 1, [⟨0, 1⟩, ⟨0, 2⟩], none⟩ none 0), (2, .enter 4), (1, .finish 0)]

def exHistory : List (Nat × Act Nat Nat) := exFlushed ++ [(1, .put [41]), (1, .put [13])]

theorem ex_one (ops : List (Nat × Act Nat Nat)) (h : ops.all (fun o => o.1 == 1 || match o.2 with | .enter _ => true | _ => false) = true) :
    OneWriter 1 ops := by
  intro p hp o ho ho1
  have := List.all_eq_true.1 h o ho
  obtain ⟨q, a⟩ := o
  simp only at ho1
  subst ho1
  cases a <;> simp_all

theorem ex_life (ops : List (Nat × Act Nat Nat)) (h : ops.all (fun o => o.1 != 1 || match o.2 with | .enter _ => false | _ => true) = true) :
    OneLife 1 ops := by
  intro cap ho
  have := List.all_eq_true.1 h _ ho
  simp at this

/-- The readers see the two flushed commits and the deletion, not the last two commits; with nothing in the memory of the
writer everything. -/
example : OneWriter 1 exHistory ∧ OneLife 1 exHistory ∧ AllWritten exExt exX 4 1 0 exHistory ∧ AllWritten exExt exX 4 1 0 exFlushed ∧
    NothingInMemory ((exFleet exFlushed).procs 1) ∧
    (∀ u ∈ (lives exExt 1 exHistory).flatten, u.ts ≤ 9) ∧
    (readAt 1 (exFleet exHistory) 2 9).map rowsOf = some [(1, 12), (3, 31)] ∧
    (readAt 1 (exFleet exHistory) 3 9).map rowsOf = some [(1, 12), (3, 31)] ∧
    (readAt 1 (exFleet exHistory) 1 9).map rowsOf = some [(1, 13), (3, 31), (4, 41)] :=
  ⟨ex_one _ (by decide +kernel), ex_life _ (by decide +kernel), by unfold AllWritten; decide +kernel,
    by unfold AllWritten; decide +kernel, by unfold NothingInMemory; decide +kernel, by decide +kernel, by decide +kernel, by decide +kernel,
    by decide +kernel⟩

example : Functional (· ∈ (lives exExt 1 exHistory).flatten) := by
  have : ∀ a ∈ (lives exExt 1 exHistory).flatten, ∀ b ∈ (lives exExt 1 exHistory).flatten, a.key = b.key → a.ts = b.ts → a.op = b.op := by
    decide +kernel
  exact fun a b ha hb => this a ha b hb

/-- A batch has eight rows, so every table fits. -/
example : AllFit exExt exX 4 1 0 1 exHistory := by
  have hfiles : (after exExt exX 4 1 0 exHistory).files = setFile (setFile (setFile (fun _ => none) ⟨0, 1⟩
      (some ⟨[(⟨1, 0⟩, 11), (⟨2, 0⟩, 21)], []⟩)) ⟨0, 2⟩ (some ⟨[(⟨1, 1⟩, 12), (⟨3, 1⟩, 31)], [⟨2, 2⟩]⟩)) ⟨1, 3⟩
      (some ⟨[(⟨1, 1⟩, 12), (⟨3, 1⟩, 31)], [⟨2, 2⟩]⟩) := rfl
  intro l e _ f hf
  refine .inr (.inr (.inl ?_))
  rw [hfiles] at hf
  unfold setFile at hf
  split_ifs at hf <;> cases hf <;> decide

/-- A process that reads by default misses everything after the first commit, though all is flushed; a process that the
same user starts again gets it only by asking for a timestamp. -/
theorem readers_miss_flushed_commits : ∃ ops : List (Nat × Act Nat Nat),
    OneWriter 1 ops ∧ OneLife 1 ops ∧ AllWritten exExt exX 4 1 0 ops ∧ NothingInMemory ((exFleet ops).procs 1) ∧
    (readNow 1 (exFleet ops) 1).map rowsOf = some [(1, 11), (2, 22)] ∧
    (readNow 1 (exFleet ops) 2).map rowsOf = some [(1, 11)] ∧
    (readNow 1 (exFleet (ops ++ [(2, .enter 4)])) 2).map rowsOf = some [(1, 11)] ∧
    (readAt 1 (exFleet ops) 2 9).map rowsOf = some [(1, 11), (2, 22)] :=
  ⟨[(1, .put [11]), (1, .put [22])] ++ flushAct 1, ex_one _ (by decide +kernel), ex_life _ (by decide +kernel),
    by unfold AllWritten; decide +kernel, by unfold NothingInMemory; decide +kernel, by decide +kernel, by decide +kernel,
    by decide +kernel, by decide +kernel⟩

/-- The writer itself does not see its flushed writes when it is started again, and what it writes then is hidden by them:
row 14 of key 1 is acknowledged last, and row 13 is read. -/
theorem a_restarted_writer_hides_its_own_writes : ∃ ops : List (Nat × Act Nat Nat),
    OneWriter 1 ops ∧ AllWritten exExt exX 4 1 0 (ops ++ [(1, .put [14])]) ∧
    (readNow 1 (exFleet ops) 1).map rowsOf = some [(1, 11)] ∧
    (readAt 1 (exFleet ops) 1 9).map rowsOf = some [(1, 13)] ∧
    (readAt 1 (exFleet (ops ++ [(1, .put [14])])) 1 9).map rowsOf = some [(1, 13)] :=
  ⟨[(1, .put [11]), (1, .put [12]), (1, .put [13])] ++ flushAct 1 ++ [(1, .enter 4)], ex_one _ (by decide +kernel),
    by unfold AllWritten; decide +kernel, by decide +kernel, by decide +kernel, by decide +kernel⟩

/-- Two processes write different keys and flush. The second flush overwrites the file of the first: the row that was
published is gone for everybody, and the same file is listed for both. -/
theorem two_writers_lose_rows : ∃ ops more : List (Nat × Act Nat Nat),
    AllWritten exExt exX 4 1 0 (ops ++ more) ∧
    (readAt 1 (exFleet ops) 3 9).map rowsOf = some [(1, 11)] ∧
    (readAt 1 (exFleet (ops ++ more)) 3 9).map rowsOf = some [(5, 52)] :=
  ⟨[(1, .put [11]), (2, .put [52])] ++ flushAct 1, flushAct 2,
    by unfold AllWritten; decide +kernel, by decide +kernel, by decide +kernel⟩

/-- One process flushes and another one compacts. Their numbers are drawn independently; when the writer is started again
it takes a name that an older version lists, and overwrites that file: the older version no longer reads what was
published. -/
theorem a_second_compactor_breaks_old_versions : ∃ ops more : List (Nat × Act Nat Nat),
    AllWritten exExt exX 4 1 0 (ops ++ more) ∧
    ∃ l e, EverListed ((exFleet ops).db 1) 1 l e ∧
      (exFleet ops).files ⟨l, e.id⟩ ≠ none ∧ (exFleet (ops ++ more)).files ⟨l, e.id⟩ ≠ (exFleet ops).files ⟨l, e.id⟩ := by
  refine ⟨[(1, .put [11])] ++ flushAct 1 ++ [(1, .put [22])] ++ flushAct 1 ++ [(2, .start ⟨0, 1, [⟨0, 1⟩, ⟨0, 2⟩], none⟩ none 0),
    (2, .finish 0)], [(1, .enter 4), (1, .put [33])] ++ flushAct 1, by unfold AllWritten; decide +kernel, 0, ?_⟩
  have h : (match readVersion (exFleet ([(1, .put [11])] ++ flushAct 1 ++ [(1, .put [22])] ++ flushAct 1 ++
      [(2, .start ⟨0, 1, [⟨0, 1⟩, ⟨0, 2⟩], none⟩ none 0), (2, .finish 0)])).kv 1 2 with
      | .ok (some v) => (v.ssts.getD 0 []).any (fun e => e.id == 2)
      | _ => false) = true := by decide +kernel
  split at h
  · rename_i v hv
    obtain ⟨e, he, hid⟩ := List.any_eq_true.1 h
    have hid : e.id = 2 := by simpa using hid
    refine ⟨e, ⟨2, v, hv, he⟩, ?_⟩
    rw [hid]
    decide +kernel
  · cases h

end Example

end Tonbo.Props.C83
