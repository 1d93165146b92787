import Verif.Lemmas.Fence
import Verif.Props.C28_Replay

/-!
# C60: two handles that write to one log
-/

namespace Tonbo.Props.C60
open Tonbo.Model Tonbo.Model.Fence Tonbo.Spec.FenceView Tonbo.Lemmas.Fence
open Tonbo.Model.Wal (Event)

variable {F : Type}

/-- **C60.** If a handle acknowledges something after another one did, it was opened in between. So a handle that was
open when another one took over gets no more acknowledgements, whatever the interleaving and whichever calls
to the storage fail. -/
theorem opened_since_the_others_acknowledgement (l m : List (Op F)) (o p : Op F)
    (ho : (step true (run true l) o).2 ≠ []) (hp : (step true (run true (l ++ o :: m)) p).2 ≠ [])
    (hne : o.handle ≠ p.handle) : Op.load p.handle ∈ m := by
  by_contra hm
  have hs := acks_stale (inv_run l) o ho p.handle hne
  obtain ⟨h1, B, h2⟩ := stale_run m _ _ (inv_step (inv_run l) o) hs hm
  have e : run true (l ++ o :: m) = m.foldl (fun s o => (step true s o).1) (step true (run true l) o).1 := by
    unfold run
    rw [List.foldl_append, List.foldl_cons]
  rw [e] at hp
  by_cases hl : p = .load p.handle
  · rw [hl] at hp
    exact hp rfl
  · exact hp ((stale_step h2 h1 p hl).2 rfl)

/-- **C60.** No two acknowledgements, of the same or of different handles, share a frame number: later ones have larger
numbers. -/
theorem acknowledged_numbers_increase (ops : List (Op F)) :
    (acks true ops).Pairwise (fun a b => a.2.2 < b.2.1) ∧ ∀ a ∈ acks true ops, a.2.1 ≤ a.2.2 := by
  refine ⟨(inv_run ops).sorted, fun a ha => ?_⟩
  obtain ⟨h1, -, h2, -⟩ := ((inv_run ops).acks a ha).2
  have := List.length_pos_of_ne_nil h1
  omega

/-- **C60.** The frames of every acknowledged command are in the log, under the numbers of the acknowledgement. -/
theorem acknowledged_frames_are_in_the_log (ops : List (Op F)) (a : Ack F) (ha : a ∈ acks true ops) :
    Recorded (run true ops).log a := ((inv_run ops).acks a ha).2

/-- **C60.** The state file covers everything acknowledged, so that the next handle goes on behind it. -/
theorem state_file_covers_acknowledgements (ops : List (Op F)) (a : Ack F) (ha : a ∈ acks true ops) :
    ∃ s t n, (run true ops).cas.cur = some (s, t) ∧ s.lastFrame = some n ∧ a.2.2 ≤ n := by
  obtain ⟨h1, h2, h3, h4, -⟩ := (inv_run ops).acks a ha
  have hpos := List.length_pos_of_ne_nil h2
  unfold curNext after at h1
  rcases hc : (run true ops).cas.cur with _ | ⟨s, t⟩
  · rw [hc] at h1
    simp only [Option.bind_none] at h1
    omega
  · rw [hc] at h1
    simp only [Option.bind_some] at h1
    cases hn : s.lastFrame with
    | none =>
      rw [hn] at h1
      simp only at h1
      omega
    | some n =>
      rw [hn] at h1
      exact ⟨s, t, n, rfl, hn, by simp only at h1; omega⟩

/-- **C60.** A handle that is opened goes on behind the last frame of the last file, acknowledged or not, and behind the
last frame the state file it loaded knows of: its first frame has a number of its own in that file. -/
theorem opening_goes_on_behind_the_last_file (ops : List (Op F)) (h : Nat) (w : Wr F)
    (hw : (run true ops).wr h = some w) (hn : w.opened = false) (hd : w.dead = false) :
    ∃ w', (run true (ops ++ [.opened h])).wr h = some w' ∧
      (∀ g ∈ (run true ops).log.getLast?, ∀ f ∈ g.2.getLast?, f.1 < w'.next) ∧
      ∀ n ∈ w.st.lastFrame, n < w'.next := by
  refine ⟨openWr w (run true ops).log, ?_, ?_, ?_⟩
  · have e : run true (ops ++ [.opened h]) = (step true (run true ops) (.opened h)).1 := by
      unfold run
      rw [List.foldl_append]
      rfl
    rw [e]
    have e2 : step true (run true ops) (.opened h) = act true (run true ops) h w (.opened h) := by
      unfold step
      simp only [Op.handle, hw]
    rw [e2]
    simp [act, hn, hd, Sys.set]
  · intro g hg f hf
    have hm := frames_of_last (run_inOrder true ops) hg
    simp only [openWr]
    rw [hm]
    rw [Option.mem_def] at hf
    rw [hf]
    simp only [Option.map_some, after]
    omega
  · intro n hn'
    rw [Option.mem_def] at hn'
    simp only [openWr, hn', after]
    omega

/-- **C60.** What a handle knows of the segments when it is opened, and what its next write to the state file
says: of the last file the numbers of its first and last frame; of every earlier file with frames what the state
file said, or else its first and last frame; nothing of other files. There is something to write exactly if the
last file has frames or the state file said something else. -/
theorem opening_knows_the_segments (ops : List (Op F)) (h : Nat) (w : Wr F)
    (hw : (run true ops).wr h = some w) (hn : w.opened = false) (hd : w.dead = false) :
    ∃ w', (run true (ops ++ [.opened h])).wr h = some w' ∧ w'.st.active = w'.active ∧ w'.st.sealed = w'.completed ∧
      (∀ g ∈ (run true ops).log.getLast?,
        (g.2 = [] → w'.active = none) ∧
        ∀ a ∈ g.2.head?, ∀ b ∈ g.2.getLast?, w'.active = some ⟨g.1, a.1, b.1⟩) ∧
      (∀ g ∈ (run true ops).log.dropLast, ∀ a ∈ g.2.head?, ∀ b ∈ g.2.getLast?, ∃ k ∈ w'.completed, k.seq = g.1 ∧
        (k ∈ w.st.sealed ∨ k = ⟨g.1, a.1, b.1⟩)) ∧
      (∀ k ∈ w'.completed, ∃ g ∈ (run true ops).log.dropLast, g.2 ≠ [] ∧ k.seq = g.1) ∧
      (w'.dirty = true ↔ w'.active ≠ none ∨ w'.st ≠ w.st) := by
  have hb : ∀ (n : Nat) (fs : List (Nat × F)) (a b : Nat × F), fs.head? = some a → fs.getLast? = some b →
      boundsOf n fs = some ⟨n, a.1, b.1⟩ := by
    intro n fs a b ha hb
    unfold boundsOf
    rw [ha, hb]
  have hfind : ∀ (n : Nat) (k : Bounds), (w.st.sealed.reverse.find? (fun x => x.seq == n)) = some k →
      k ∈ w.st.sealed ∧ k.seq = n := by
    intro n k hk
    have h1 := List.find?_some hk
    exact ⟨List.mem_reverse.1 (List.mem_of_find?_eq_some hk), by simpa using h1⟩
  have hcomp : ∀ k, k ∈ rehydrate w.st (run true ops).log → ∃ g ∈ (run true ops).log.dropLast, g.2 ≠ [] ∧ k.seq = g.1 := by
    intro k hk
    unfold rehydrate at hk
    obtain ⟨g, hg, hk⟩ := List.mem_filterMap.1 hk
    refine ⟨g, hg, ?_⟩
    cases hbd : boundsOf g.1 g.2 with
    | none => rw [hbd] at hk; cases hk
    | some b =>
      rw [hbd] at hk
      simp only [Option.some.injEq] at hk
      have hbs : b.seq = g.1 ∧ g.2 ≠ [] := by
        unfold boundsOf at hbd
        split at hbd
        · rename_i h1 _
          cases hbd
          exact ⟨rfl, by intro h2; rw [h2] at h1; cases h1⟩
        · cases hbd
      refine ⟨hbs.2, ?_⟩
      cases hf : w.st.sealed.reverse.find? (fun x => x.seq == g.1) with
      | none => rw [hf] at hk; rw [← hk]; exact hbs.1
      | some k' => rw [hf] at hk; rw [← hk]; exact (hfind _ _ hf).2
  have hall : ∀ g ∈ (run true ops).log.dropLast, ∀ b, boundsOf g.1 g.2 = some b →
      ((w.st.sealed.reverse.find? (fun x => x.seq == g.1)).getD b) ∈ rehydrate w.st (run true ops).log := by
    intro g hg b hbd
    exact List.mem_filterMap.2 ⟨g, hg, by rw [hbd]⟩
  refine ⟨openWr w (run true ops).log, ?_, rfl, rfl, ?_, ?_, hcomp, ?_⟩
  · have e : run true (ops ++ [.opened h]) = (step true (run true ops) (.opened h)).1 := by
      unfold run
      rw [List.foldl_append]
      rfl
    rw [e]
    have e2 : step true (run true ops) (.opened h) = act true (run true ops) h w (.opened h) := by
      unfold step
      simp only [Op.handle, hw]
    rw [e2]
    simp [act, hn, hd, Sys.set]
  · intro g hg
    have hm := frames_of_last (run_inOrder true ops) hg
    have hl : lastSeg (run true ops).log = g.1 := by
      unfold lastSeg
      rw [Option.mem_def] at hg
      rw [hg]
    constructor
    · intro he
      simp only [openWr, hm, he]
      rfl
    · intro a ha b hb'
      simp only [openWr, hm]
      rw [hb _ _ a b ha hb', hl]
  · intro g hg a ha b hb'
    refine ⟨_, hall g hg _ (hb _ _ a b ha hb'), ?_⟩
    cases hf : w.st.sealed.reverse.find? (fun x => x.seq == g.1) with
    | none => exact ⟨rfl, .inr rfl⟩
    | some k => exact ⟨(hfind _ _ hf).2, .inl (hfind _ _ hf).1⟩
  · have hmiss : missing w.st (run true ops).log = true → w.st.sealed ≠ rehydrate w.st (run true ops).log := by
      intro hm he
      unfold missing at hm
      obtain ⟨g, hg, hm⟩ := List.any_eq_true.1 hm
      simp only [Bool.and_eq_true, Option.isNone_iff_eq_none, Option.isSome_iff_exists] at hm
      obtain ⟨⟨b, hbd⟩, hno⟩ := hm
      have h1 := hall g hg b hbd
      have hnone : w.st.sealed.reverse.find? (fun x => x.seq == g.1) = none := by
        rw [List.find?_eq_none] at hno ⊢
        exact fun x hx => hno x (List.mem_reverse.1 hx)
      rw [hnone, ← he] at h1
      have h2 := List.find?_eq_none.1 hno _ h1
      have hbs : b.seq = g.1 := by
        unfold boundsOf at hbd
        split at hbd
        · cases hbd; rfl
        · cases hbd
      simp [hbs] at h2
    have hst : (openWr w (run true ops).log).st ≠ w.st ↔
        w.st.sealed ≠ (openWr w (run true ops).log).completed ∨ w.st.active ≠ (openWr w (run true ops).log).active := by
      rw [← not_iff_not]
      simp only [openWr, ne_eq, not_or, not_not]
      constructor
      · intro he
        have h1 := congrArg St.sealed he
        have h2 := congrArg St.active he
        exact ⟨h1.symm, h2.symm⟩
      · rintro ⟨h1, h2⟩
        rw [← h1, ← h2]
    rw [hst]
    simp only [openWr, Bool.or_eq_true, decide_eq_true_eq, Option.isSome_iff_ne_none]
    constructor
    · rintro (((h1 | h1) | h1) | h1)
      · exact .inr (.inl (hmiss h1))
      · exact .inl h1
      · exact .inr (.inl h1)
      · exact .inr (.inr h1)
    · rintro (h1 | h1 | h1)
      · exact .inl (.inl (.inr h1))
      · exact .inl (.inr h1)
      · exact .inr h1

/-! ## An example -/

/-- A command of one frame. -/
def one (f : Nat) : Cmd Nat := ⟨[f], none, false⟩

/-- Opening a handle. -/
def enter (h : Nat) : List (Op F) := [.load h, .opened h]

/-- A batch of one command that is written without interruption. -/
def write (h : Nat) (c : Cmd F) : List (Op F) := .batch h [c] :: c.frames.map (fun _ => .frame h true) ++ [.finish h .ok]

/-- Handle 1 writes; handle 2 is opened and writes twice, filling a segment; handle 1 tries again, is opened again and
writes. -/
def exOps : List (Op Nat) :=
  enter 1 ++ write 1 (one 10) ++ enter 2 ++ write 2 ⟨[20, 21], some 7, true⟩ ++ write 2 (one 22) ++ write 1 (one 11) ++
  enter 1 ++ write 1 (one 12)

example : acks true exOps = [(one 10, 1, 1), (⟨[20, 21], some 7, true⟩, 2, 3), (one 22, 4, 4), (one 12, 5, 5)] := by
  decide +kernel
example : (run true exOps).log = [(0, [(1, 10), (2, 20), (3, 21), (2, 11)]), (1, [(4, 22), (5, 12)])] := by decide +kernel
example : (run true exOps).cas.cur = some (⟨some 0, some 5, some 7, [⟨0, 1, 3⟩], some ⟨1, 4, 5⟩⟩, 3) := by decide +kernel

/-- A handle opened then, and what it knows: the bounds of the first segment are those of the state file, without the
late frame of the first handle. -/
example : ((run true (exOps ++ [.load 3]) : Sys Nat).wr 3).map (fun w => (w.opened, w.dead)) = some (false, false) ∧
    ((run true (exOps ++ enter 3) : Sys Nat).wr 3).map (fun w => (w.completed, w.active, w.dirty)) =
      some ([⟨0, 1, 3⟩], some ⟨1, 4, 5⟩, true) := by decide +kernel

/-- The hypotheses of the first theorem: handle 1 acknowledges, then handle 2. -/
example : (step true (run true (exOps.take 4)) (.finish 1 .ok)).2 ≠ [] ∧
    exOps.take 5 = exOps.take 4 ++ [.finish 1 .ok] ∧
    (step true (run true (exOps.take 4 ++ .finish 1 .ok :: (exOps.drop 5).take 5)) (.finish 2 .ok)).2 ≠ [] := by
  decide +kernel

/-! ## What a handle leaves behind that is not acknowledged -/

section Left
set_option synthInstance.maxSize 1000
set_option synthInstance.maxHeartbeats 200000

/-- The log as replay reads it. -/
def events (l : Log (Event Unit)) : List (Event Unit) := l.flatMap (fun s => s.2.map Prod.snd)

/-- What a database recovered from the log shows at timestamp 9. -/
def recovered (l : Log (Event Unit)) : Option (Option (List (Mem.Entry Nat Nat))) :=
  (Wal.replay C28.exExt C28.exSch (fun _ => false) (Mem.Runs.new 4) (events l)).map (fun r => Mem.scan r.1.mem none 9)

/-- Two handles are opened on an empty log, so both hand out transaction id 1 first. Both append one row. The second
handle is acknowledged, so the first fails; then the second commits. -/
def exBoth (ts : BitVec 64) : List (Op (Event Unit)) :=
  enter 1 ++ enter 2 ++
  [.batch 1 [⟨[C28.exUp 1 10 1], none, false⟩], .frame 1 true] ++ write 2 ⟨[C28.exUp 1 20 ts], none, false⟩ ++
  [.finish 1 .ok] ++ write 2 ⟨[.commit 1 ts], some ts.toNat, false⟩

/-- **C60 fails:** nothing was acknowledged to the first handle, and everything to the second. After a restart the row of
the first handle is there, as part of the transaction of the second. -/
theorem a_failed_write_is_committed_by_another_handle : ∃ ops : List (Op (Event Unit)),
    acks true ops = [(⟨[C28.exUp 1 20 1], none, false⟩, 1, 1), (⟨[.commit 1 1], some 1, false⟩, 2, 2)] ∧
    recovered (run true ops).log = some (some [.row ⟨10, 1⟩ 10, .row ⟨20, 1⟩ 20]) :=
  ⟨exBoth 1, by decide +kernel⟩

/-- **C60 fails:** the same, but the second handle has used up a timestamp before: a transaction with a row
that cannot be encoded takes a timestamp and no id (transaction/mod.rs:598-619). Its write is acknowledged, and the
log cannot be replayed any more. -/
theorem a_failed_write_spoils_the_log : ∃ ops : List (Op (Event Unit)),
    acks true ops = [(⟨[C28.exUp 1 20 2], none, false⟩, 1, 1), (⟨[.commit 1 2], some 2, false⟩, 2, 2)] ∧
    recovered (run true ops).log = none :=
  ⟨exBoth 2, by decide +kernel⟩

/-- Without the first handle, the row of the second is recovered. -/
example : recovered (run true (enter 2 ++ write 2 ⟨[C28.exUp 1 20 2], none, false⟩ ++
    write 2 ⟨[.commit 1 2], some 2, false⟩)).log = some (some [.row ⟨20, 2⟩ 20]) := by decide +kernel

end Left

/-- **C60 fails** without a state file: both handles are acknowledged, under the same numbers. -/
theorem without_a_state_file_numbers_are_shared : ∃ ops : List (Op Nat),
    acks false ops = [(one 10, 1, 1), (one 20, 1, 1)] :=
  ⟨enter 1 ++ enter 2 ++ write 1 (one 10) ++ write 2 (one 20), by decide +kernel⟩

/-- With one, the second is refused. -/
example : acks true (enter 1 ++ enter 2 ++ write 1 (one 10) ++ write 2 (one 20)) = [(one 10, 1, 1)] := by decide +kernel

/-- A handle dies with a frame in the log that is not acknowledged; the next one goes on behind it. -/
example : (run true (enter 1 ++ write 1 (one 10) ++ [.batch 1 [one 11], .frame 1 true, .kill 1] ++ enter 2 ++ write 2 (one 12)) : Sys Nat).log =
    [(0, [(1, 10), (2, 11), (3, 12)])] := by decide +kernel

/-- Only the last file is looked at: if the state file cannot be written after a command that filled its segment, the
last file is empty, and the next handle gives the numbers of that command again. One handle at a time is enough. -/
theorem a_failed_rotation_gives_numbers_twice : ∃ ops : List (Op Nat),
    (∀ o ∈ ops, o.handle = 1) ∧ InLog (run true ops).log 1 10 ∧ InLog (run true ops).log 1 11 ∧
      acks true ops = [(one 11, 1, 1)] := by
  refine ⟨enter 1 ++ [.batch 1 [⟨[10], none, true⟩], .frame 1 true, .finish 1 .fail] ++ enter 1 ++ write 1 (one 11), ?_, ?_, ?_, ?_⟩
  · decide
  · exact ⟨(0, [(1, 10)]), by decide +kernel, by decide⟩
  · exact ⟨(1, [(1, 11)]), by decide +kernel, by decide⟩
  · decide +kernel

end Tonbo.Props.C60
