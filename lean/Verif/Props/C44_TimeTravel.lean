import Verif.Model.TimeTravel
import Verif.Lemmas.SnapRead
import Verif.Props.C21_C24_Txn

/-!
# C44: time travel
-/

set_option linter.unusedSectionVars false
set_option synthInstance.maxSize 1000
set_option synthInstance.maxHeartbeats 200000

namespace Tonbo.Props.C44
open Tonbo.Model Tonbo.Model.Txn Tonbo.Model.Lsm Tonbo.Model.Manifest Tonbo.Model.Planner Tonbo.Model.Merge Tonbo.Model.TimeTravel
open Tonbo.Spec Tonbo.Lemmas.Txn
open Tonbo.Lemmas.Lsm (Fitting everListed_iff isReopen Inv Cont cont_run cont_new inv_new inv_run published_iff At Lst OnDisk)
open Tonbo.Props.C54 (Reports merged NoRestart NoCompaction noRestart noCompaction content)
open Tonbo.Lemmas.Manifest (snapshotLatest_spec listVersions_spec readVersion_some)
open Tonbo.Lemmas.Plan (mem_lastWrite)
open Tonbo.Lemmas.Mem (lastWrite_mem)

variable {K R : Type} [LinearOrder K]

/-- A table listed by this version holds the write. -/
def InTables (s : Db K R) (v : Version (Info K)) (w : Ver K R) : Prop :=
  ∃ l e f, e ∈ v.ssts.getD l [] ∧ s.files ⟨l, e.id⟩ = some f ∧ Holds f w

theorem find_desc {P : Type} (ts : Nat) : ∀ (all : List (Version P)), all.Pairwise (fun a b => b.ts < a.ts) →
    match all.find? (fun v => decide (v.ts ≤ ts)) with
    | some v => v ∈ all ∧ v.ts ≤ ts ∧ ∀ u ∈ all, u.ts ≤ ts → u.ts ≤ v.ts
    | none => ∀ u ∈ all, ts < u.ts := by
  intro all h
  induction all with
  | nil => simp
  | cons a all ih =>
    have h2 := List.pairwise_cons.1 h
    by_cases ha : a.ts ≤ ts
    · rw [List.find?_cons_of_pos (by simpa using ha)]
      refine ⟨List.mem_cons_self, ha, fun u hu _ => ?_⟩
      rcases List.mem_cons.1 hu with rfl | hu
      · exact Nat.le_refl _
      · exact Nat.le_of_lt (h2.1 u hu)
    · rw [List.find?_cons_of_neg (by simpa using ha)]
      have := ih h2.2
      cases hf : all.find? (fun v => decide (v.ts ≤ ts)) with
      | some v =>
        rw [hf] at this
        refine ⟨List.mem_cons_of_mem _ this.1, this.2.1, fun u hu hut => ?_⟩
        rcases List.mem_cons.1 hu with rfl | hu
        · exact absurd hut ha
        · exact this.2.2 u hu hut
      | none =>
        rw [hf] at this
        intro u hu
        rcases List.mem_cons.1 hu with rfl | hu
        · omega
        · exact this u hu

theorem version_of_inv {ext : R → Option K} {x : Exec K R} {t n : Nat} {s : Db K R} (hi : Inv ext x t n s) (ts : Nat) :
    (∃ v, openAt s.kv t ts = .ok ⟨ts, some v⟩ ∧ Published s t v.ts v ∧ v.ts ≤ ts ∧
      ∀ k u, Published s t k u → k ≤ ts → k ≤ v.ts) ∨
    (∃ hd v, openAt s.kv t ts = .ok ⟨ts, v⟩ ∧ snapshotLatest s.kv t = .ok (hd, v) ∧
      ∀ k u, Published s t k u → ts < k) := by
  obtain ⟨hd, hreg⟩ := hi.reg
  obtain ⟨all, h1, h2, h3⟩ := listVersions_spec hi.good t 0
  have hpub : ∀ k u, Published s t k u → u ∈ all ∧ u.ts = k := by
    intro k u hu
    have hu' : kget s.kv (.version t k) = some (.version u) := (readVersion_some hi.good).1 hu
    have : u.ts = k := by
      by_cases hk : 1 ≤ k ∧ k ≤ n
      · obtain ⟨v, hv, hts, _⟩ := hreg.some k hk.1 hk.2
        rw [hv] at hu'; cases hu'; exact hts
      · rw [hreg.none k (by omega)] at hu'; cases hu'
    exact ⟨(h2 u).2 (by rw [this]; exact hu'), this⟩
  have hfind := find_desc ts all h1
  simp only [if_true] at h3
  unfold openAt versionAt
  rw [h3]
  simp only
  cases hf : all.find? (fun v => decide (v.ts ≤ ts)) with
  | some v =>
    left
    rw [hf] at hfind
    obtain ⟨m1, m2, m3⟩ := hfind
    have hp : Published s t v.ts v := (readVersion_some hi.good).2 ((h2 v).1 m1)
    refine ⟨v, ?_, hp, m2, fun k u hu hk => ?_⟩
    · simp only [Manifest.snapshotAt, readHead, hreg.head, asHead]
      have : readVersion s.kv t v.ts = .ok (some v) := hp
      rw [this]
    · obtain ⟨u1, u2⟩ := hpub k u hu
      rw [← u2] at hk ⊢
      exact m3 u u1 hk
  | none =>
    right
    rw [hf] at hfind
    obtain ⟨hd', v, he⟩ : ∃ hd v, snapshotLatest s.kv t = .ok (hd, v) := by
      rcases snapshotLatest_spec hreg with ⟨_, he⟩ | ⟨_, v, _, _, he⟩
      · exact ⟨_, _, he⟩
      · exact ⟨_, _, he⟩
    refine ⟨hd', v, ?_, he, fun k u hu => ?_⟩
    · simp only [he]
    · obtain ⟨u1, u2⟩ := hpub k u hu
      rw [← u2]
      exact hfind u u1

/-- **C44**, which version is read: the newest one whose number is not above the requested timestamp; if all
are above, or there is none, the latest state. -/
theorem the_version_read (ext : R → Option K) (x : Exec K R) (hn : 0 < x.readRows) (cap t sv : Nat)
    (ops : List (Lsm.Op K R)) (ts : Nat) :
    let s := reached ext x cap t sv ops
    (∃ v, openAt s.kv t ts = .ok ⟨ts, some v⟩ ∧ Published s t v.ts v ∧ v.ts ≤ ts ∧
      ∀ k u, Published s t k u → k ≤ ts → k ≤ v.ts) ∨
    (∃ hd v, openAt s.kv t ts = .ok ⟨ts, v⟩ ∧ snapshotLatest s.kv t = .ok (hd, v) ∧
      ∀ k u, Published s t k u → ts < k) := by
  intro s
  obtain ⟨n, _, hi⟩ := inv_run hn ops (inv_new ext x cap t sv)
  exact version_of_inv hi ts

/-- A scan through any published version, or through none. -/
theorem scan_of_version {ext : R → Option K} {x : Exec K R} {t n : Nat} {s : Db K R} {log : List (Ver K R)}
    {exact : Prop} {logs : List (List (Ver K R))} {cur : List (Ver K R)} (h : Inv ext x t n s)
    (hc : Cont ext t n s log exact logs cur) (hf : Functional (· ∈ log)) (rts : Nat) (v : Option (Version (Info K)))
    (hv : ∀ u, v = some u → ∃ k, At s.kv t k u) :
    ∃ out, scanSnap s ⟨rts, v⟩ = some out ∧
      IsScan (fun w => w ∈ logs.flatten ∨ w ∈ cur ∨ ∃ u, v = some u ∧ InTables s u w) rts (rowsOf out) := by
  obtain ⟨fs, f1, f2, f3⟩ : ∃ fs, snapFiles s v = some fs ∧ (∀ f ∈ fs, FileSorted f) ∧
      ∀ f, f ∈ fs ↔ ∃ u l e, v = some u ∧ e ∈ u.ssts.getD l [] ∧ s.files ⟨l, e.id⟩ = some f := by
    cases v with
    | none => exact ⟨[], rfl, by simp, by simp⟩
    | some u =>
      obtain ⟨k, hk⟩ := hv u rfl
      obtain ⟨fs, g1, g2, g3⟩ := snapFiles_ok h hk
      refine ⟨fs, g1, g2, fun f => (g3 f).trans ?_⟩
      constructor
      · rintro ⟨l, e, a, b⟩; exact ⟨u, l, e, rfl, a, b⟩
      · rintro ⟨u', l, e, hu', a, b⟩; cases hu'; exact ⟨l, e, a, b⟩
  obtain ⟨ss, Hs, s1, s2, s3⟩ := snap_streams (s := s) (sn := ⟨rts, v⟩) ⟨hc.runs, hc.mem⟩ f1 f2
  have hcurf : Functional (· ∈ cur) := fun a b ha hb =>
    hf a b (hc.sub a (List.mem_append_right _ ha)) (hc.sub b (List.mem_append_right _ hb))
  have hlogf : ∀ l ∈ logs, Functional (· ∈ l) := fun l hl a b ha hb =>
    hf a b (hc.sub a (List.mem_append_left _ (List.mem_flatten.2 ⟨l, hl, ha⟩)))
      (hc.sub b (List.mem_append_left _ (List.mem_flatten.2 ⟨l, hl, hb⟩)))
  have hin : ∀ f ∈ fs, ∀ w, Holds f w → w ∈ log := by
    intro f hff w hw
    obtain ⟨u, l, e, a1, a2, a3⟩ := (f3 f).1 hff
    obtain ⟨k, hk⟩ := hv u a1
    exact hc.listed l e ⟨k, u, hk, a2⟩ f a3 w hw
  have hfile : ∀ f ∈ fs, ∀ w, FileVersions f w ↔ Holds f w := by
    intro f hff w
    refine Lemmas.Flush.fileVersions_iff (H := Holds f) ?_ (fun _ _ => Iff.rfl) (fun _ => Iff.rfl) w
    intro a b ha hb
    exact hf a b (hin f hff a ha) (hin f hff b hb)
  have hu : (fun w => ∃ H ∈ Hs, H w) =
      fun w => w ∈ logs.flatten ∨ w ∈ cur ∨ ∃ u, v = some u ∧ InTables s u w := by
    funext w
    apply propext
    rw [s3]
    constructor
    · rintro (⟨l, hl, hw⟩ | hw | ⟨f, hff, hw⟩)
      · exact .inl (List.mem_flatten.2 ⟨l, hl, lastWrite_mem hw⟩)
      · exact .inr (.inl (lastWrite_mem hw))
      · obtain ⟨u, l, e, a1, a2, a3⟩ := (f3 f).1 hff
        exact .inr (.inr ⟨u, a1, l, e, f, a2, a3, (hfile f hff w).1 hw⟩)
    · rintro (hw | hw | ⟨u, a1, l, e, f, a2, a3, hw⟩)
      · obtain ⟨l, hl, hw⟩ := List.mem_flatten.1 hw
        exact .inl ⟨l, hl, mem_lastWrite l (hlogf l hl) w hw⟩
      · exact .inr (.inl (mem_lastWrite cur hcurf w hw))
      · have hff := (f3 f).2 ⟨u, l, e, a1, a2, a3⟩
        exact .inr (.inr ⟨f, hff, (hfile f hff w).2 hw⟩)
  obtain ⟨tr, m1, m2⟩ := merged s2 (by
    rw [hu]
    intro a b ha hb
    have hsub : ∀ w, (w ∈ logs.flatten ∨ w ∈ cur ∨ ∃ u, v = some u ∧ InTables s u w) → w ∈ log := by
      rintro w (hw | hw | ⟨u, a1, l, e, f, a2, a3, hw⟩)
      · exact hc.sub w (List.mem_append_left _ hw)
      · exact hc.sub w (List.mem_append_right _ hw)
      · exact hin f ((f3 f).2 ⟨u, l, e, a1, a2, a3⟩) w hw
    exact hf a b (hsub a ha) (hsub b hb))
  rw [hu] at m2
  refine ⟨C05.ready tr, ?_, m2⟩
  unfold scanSnap runScan
  rw [s1 none]
  simp only [List.nil_append, m1, Option.map_some]

/-- **C44 (partial).** Without compactions and restarts, a snapshot at `ts` shows exactly the rows visible at
`ts`, provided that every write not later than `ts` that has been flushed is in a table of the version that is
read.

Missing: the proviso is not met by all histories, see `time_travel_hides_a_row`. -/
theorem time_travel_partial (ext : R → Option K) (x : Exec K R) (hn : 0 < x.readRows)
    (cap t sv : Nat) (ops : List (Lsm.Op K R)) (hr : NoRestart ops) (hcomp : NoCompaction ops)
    (hok : (Lsm.run ext x t (Db.new cap t sv) ops).1 = true) (hf : Functional (· ∈ logOf ext ops)) (ts : Nat)
    (hflushed : ∀ new w, Latest (reached ext x cap t sv ops) t new → InTables (reached ext x cap t sv ops) new w →
      w.ts ≤ ts → ∃ v, openAt (reached ext x cap t sv ops).kv t ts = .ok ⟨ts, some v⟩ ∧
        InTables (reached ext x cap t sv ops) v w) :
    ∃ out, scanAt t (reached ext x cap t sv ops) ts = some out ∧ IsScan (· ∈ logOf ext ops) ts (rowsOf out) := by
  obtain ⟨n, logs, cur, h, hc⟩ := cont_run (exact := True) hn ops (cont_new ext cap t sv True) (inv_new ext x cap t sv)
    (by simpa using hf) (fun h => absurd trivial h) (noRestart hr) (fun _ => noCompaction hcomp) hok
  rw [List.nil_append] at hc
  change Inv ext x t n (reached ext x cap t sv ops) at h
  change Cont ext t n (reached ext x cap t sv ops) _ _ logs cur at hc
  have hver := the_version_read ext x hn cap t sv ops ts
  simp only at hver
  obtain ⟨v, hv1, hv2⟩ : ∃ v, openAt (reached ext x cap t sv ops).kv t ts = .ok ⟨ts, v⟩ ∧
      ∀ u, v = some u → ∃ k, At (reached ext x cap t sv ops).kv t k u := by
    rcases hver with ⟨v, h1, h2, _⟩ | ⟨hd, v, h1, h2, _⟩
    · exact ⟨some v, h1, fun u hu => by cases hu; exact ⟨_, published_iff.1 h2⟩⟩
    · refine ⟨v, h1, fun u hu => ?_⟩
      subst hu
      obtain ⟨hd', hreg⟩ := h.reg
      rcases snapshotLatest_spec hreg with ⟨_, e⟩ | ⟨_, v', hv', _, e⟩
      · rw [e] at h2; cases h2
      · rw [e] at h2; cases h2
        exact ⟨n, hv'⟩
  obtain ⟨out, o1, o2⟩ := scan_of_version h hc hf ts v hv2
  refine ⟨out, ?_, o2.1, fun k r => (o2.2 k r).trans ?_⟩
  · unfold scanAt
    rw [hv1]
    exact o1
  obtain ⟨c1, c2⟩ := content (x := x) hc
  have hsub : ∀ w, (w ∈ logs.flatten ∨ w ∈ cur ∨ ∃ u, v = some u ∧ InTables (reached ext x cap t sv ops) u w) →
      w ∈ logOf ext ops := by
    rintro w (hw | hw | ⟨u, a1, l, e, f, a2, a3, hw⟩)
    · exact c1 w (.inl hw)
    · exact c1 w (.inr (.inl hw))
    · obtain ⟨k, hk⟩ := hv2 u a1
      exact hc.listed l e ⟨k, u, hk, a2⟩ f a3 w hw
  have hsup : ∀ w ∈ logOf ext ops, w.ts ≤ ts →
      (w ∈ logs.flatten ∨ w ∈ cur ∨ ∃ u, v = some u ∧ InTables (reached ext x cap t sv ops) u w) := by
    intro w hw hts
    obtain ⟨u, hu, _, _, he⟩ := c2 w hw
    rw [he trivial] at hu
    rcases hu with hu | hu | ⟨vn, l, e, f, a1, a2, a3, a4⟩
    · exact .inl hu
    · exact .inr (.inl hu)
    · right; right
      have hlat : Latest (reached ext x cap t sv ops) t vn := by
        refine ⟨n, published_iff.2 a1, fun k u hu => ?_⟩
        obtain ⟨hd, hreg⟩ := h.reg
        exact (Lemmas.Lsm.at_le hreg (published_iff.1 hu)).2
      obtain ⟨v', h1, h2⟩ := hflushed vn w hlat ⟨l, e, f, a2, a3, a4⟩ hts
      rw [hv1] at h1
      cases h1
      exact ⟨v', rfl, h2⟩
  constructor
  · rintro ⟨wt, hw, hle, hmax⟩
    exact ⟨wt, hsub _ hw, hle, fun u hu hk hut => hmax u (hsup u hu hut) hk hut⟩
  · rintro ⟨wt, hw, hle, hmax⟩
    exact ⟨wt, hsup _ hw hle, hle, fun u hu hk hut => hmax u (hsub u hu) hk hut⟩

/-- **C44 (partial).** Without compactions and restarts, a snapshot at a timestamp not below the number of the
latest version shows exactly the rows visible at that timestamp. -/
theorem time_travel_past_the_last_version_partial (ext : R → Option K) (x : Exec K R) (hn : 0 < x.readRows)
    (cap t sv : Nat) (ops : List (Lsm.Op K R)) (hr : NoRestart ops) (hcomp : NoCompaction ops)
    (hok : (Lsm.run ext x t (Db.new cap t sv) ops).1 = true) (hf : Functional (· ∈ logOf ext ops)) (ts : Nat)
    (hts : ∀ k v, Published (reached ext x cap t sv ops) t k v → k ≤ ts) :
    ∃ out, scanAt t (reached ext x cap t sv ops) ts = some out ∧ IsScan (· ∈ logOf ext ops) ts (rowsOf out) := by
  refine time_travel_partial ext x hn cap t sv ops hr hcomp hok hf ts ?_
  rintro new w ⟨k, hk, hlat⟩ hw _
  rcases the_version_read ext x hn cap t sv ops ts with ⟨v, h1, h2, _, h4⟩ | ⟨_, _, _, _, h3⟩
  · refine ⟨v, h1, ?_⟩
    have e1 := h4 k new hk (hts k new hk)
    have e2 := hlat v.ts v h2
    have : v.ts = k := Nat.le_antisymm e2 e1
    rw [this] at h2
    unfold Published at h2 hk
    rw [h2] at hk
    cases hk
    exact hw
  · have a := h3 k new hk
    have b := hts k new hk
    omega

theorem scan_present {ext : R → Option K} {x : Exec K R} {t n : Nat} {s : Db K R} {log : List (Ver K R)}
    {exact : Prop} {logs : List (List (Ver K R))} {cur : List (Ver K R)} (h : Inv ext x t n s)
    (hc : Cont ext t n s log exact logs cur) (hf : Functional (· ∈ log)) (ts : Nat)
    (hvs : ∀ k v, Published s t k v → k ≤ ts) (hts : ∀ w ∈ log, w.ts ≤ ts) :
    ∃ out, scanAt t s ts = some out ∧ IsScan (· ∈ log) ts (rowsOf out) := by
  obtain ⟨hd, hreg⟩ := h.reg
  obtain ⟨v, hv1, hv2⟩ : ∃ v, openAt s.kv t ts = .ok ⟨ts, v⟩ ∧
      ∀ u, v = some u ↔ At s.kv t n u := by
    have key : ∀ hd v, snapshotLatest s.kv t = .ok (hd, v) →
        ∀ u, v = some u ↔ At s.kv t n u := by
      intro hd' v h2 u
      rcases snapshotLatest_spec hreg with ⟨h0, e⟩ | ⟨_, v', hv', _, e⟩
      · rw [e] at h2; cases h2
        constructor
        · intro hu; cases hu
        · intro hu
          have := Lemmas.Lsm.at_le hreg hu
          omega
      · rw [e] at h2; cases h2
        have hv' : At s.kv t n v' := hv'
        constructor
        · intro hu; cases hu; exact hv'
        · intro hu
          unfold At at hu hv'
          rw [hv'] at hu
          cases hu; rfl
    rcases version_of_inv h ts with ⟨v, h1, h2, _, h4⟩ | ⟨hd, v, h1, h2, _⟩
    · refine ⟨some v, h1, fun u => ?_⟩
      have e2 := Lemmas.Lsm.at_le hreg (published_iff.1 h2)
      obtain ⟨v', hv', _⟩ := hreg.some n (Nat.le_trans e2.1 e2.2) (Nat.le_refl _)
      have hp : Published s t n v' := published_iff.2 hv'
      have e1 := h4 n v' hp (hvs n v' hp)
      have hvn : v.ts = n := Nat.le_antisymm e2.2 e1
      rw [hvn] at h2
      have h2 := published_iff.1 h2
      constructor
      · intro hu; cases hu; exact h2
      · intro hu
        unfold At at hu h2
        rw [h2] at hu
        cases hu; rfl
    · exact ⟨v, h1, key hd v h2⟩
  obtain ⟨out, o1, o2⟩ := scan_of_version h hc hf ts v (fun u hu => ⟨n, (hv2 u).1 hu⟩)
  have hset : (fun w => w ∈ logs.flatten ∨ w ∈ cur ∨ ∃ u, v = some u ∧ InTables s u w) =
      fun w => w ∈ logs.flatten ∨ w ∈ cur ∨ OnDisk t n s w := by
    funext w
    apply propext
    refine or_congr Iff.rfl (or_congr Iff.rfl ?_)
    constructor
    · rintro ⟨u, hu, l, e, f, a2, a3, a4⟩
      exact ⟨u, l, e, f, (hv2 u).1 hu, a2, a3, a4⟩
    · rintro ⟨u, l, e, f, hu, a2, a3, a4⟩
      exact ⟨u, (hv2 u).2 hu, l, e, f, a2, a3, a4⟩
  rw [hset] at o2
  refine ⟨out, ?_, o2.1, fun k r => (o2.2 k r).trans ?_⟩
  · unfold scanAt
    rw [hv1]
    exact o1
  obtain ⟨c1, c2⟩ := content (x := x) hc
  constructor
  · rintro ⟨wt, hw, hle, hmax⟩
    refine ⟨wt, c1 _ hw, hle, fun u hu hk hut => ?_⟩
    obtain ⟨u', hu', k1, k2, _⟩ := c2 u hu
    exact Nat.le_trans k2 (hmax u' hu' (k1.trans hk) (hts _ (c1 _ hu')))
  · rintro ⟨wt, hw, hle, hmax⟩
    obtain ⟨u, hu, k1, k2, _⟩ := c2 _ hw
    have h1 := hmax u (c1 u hu) k1 (hts _ (c1 u hu))
    have hts' : u.ts = wt := Nat.le_antisymm h1 k2
    have hop : u.op = .put r := hf u ⟨k, wt, .put r⟩ (c1 u hu) hw k1 hts'
    obtain ⟨uk, ut, uo⟩ := u
    simp only at k1 hts' hop
    subst k1
    subst hts'
    subst hop
    exact ⟨_, hu, hle, fun u hu hk hut => hmax u (c1 u hu) hk hut⟩

/-- **C44 (partial).** With compactions, but without restarts: a snapshot at a timestamp that is neither below
the number of the latest version nor below any write shows exactly the rows visible at that timestamp. -/
theorem time_travel_to_the_present_partial (ext : R → Option K) (x : Exec K R) (hn : 0 < x.readRows)
    (cap t sv : Nat) (ops : List (Lsm.Op K R)) (hr : NoRestart ops)
    (hok : (Lsm.run ext x t (Db.new cap t sv) ops).1 = true) (hf : Functional (· ∈ logOf ext ops))
    (hfit : ∀ l e, EverListed (reached ext x cap t sv ops) t l e →
      ∀ f, (reached ext x cap t sv ops).files ⟨l, e.id⟩ = some f → Fits x.readRows f)
    (ts : Nat) (hvs : ∀ k v, Published (reached ext x cap t sv ops) t k v → k ≤ ts)
    (hts : ∀ w ∈ logOf ext ops, w.ts ≤ ts) :
    ∃ out, scanAt t (reached ext x cap t sv ops) ts = some out ∧ IsScan (· ∈ logOf ext ops) ts (rowsOf out) := by
  obtain ⟨n, logs, cur, h, hc⟩ := cont_run (exact := False) hn ops (cont_new ext cap t sv False) (inv_new ext x cap t sv)
    (by simpa using hf) (fun _ l e he => hfit l e (everListed_iff.2 he)) (noRestart hr) (fun h => h.elim) hok
  rw [List.nil_append] at hc
  exact scan_present h hc hf ts hvs hts

theorem satSum_le (bytes : List Nat) : satSum bytes = min bytes.sum (2 ^ 64 - 1) := by
  have : ∀ (l : List Nat) (a : Nat), a ≤ 2 ^ 64 - 1 →
      l.foldl (fun acc b => min (acc + b) (2 ^ 64 - 1)) a = min (a + l.sum) (2 ^ 64 - 1) := by
    intro l
    induction l with
    | nil => intro a ha; simp; omega
    | cons b l ih =>
      intro a ha
      rw [List.foldl_cons, ih _ (Nat.min_le_right _ _), List.sum_cons]
      omega
  have h := this bytes 0 (by omega)
  rw [Nat.zero_add] at h
  exact h

/-- `list_versions` counts what a version lists. -/
theorem list_versions_counts (ext : R → Option K) (x : Exec K R) (hn : 0 < x.readRows) (cap t sv : Nat)
    (ops : List (Lsm.Op K R)) (limit : Nat) :
    let s := reached ext x cap t sv ops
    ∃ all : List (Version (Info K)), all.Pairwise (fun a b => b.ts < a.ts) ∧
      (∀ v, v ∈ all ↔ Published s t v.ts v) ∧
      ∃ out, TimeTravel.listVersions s.kv t limit = .ok out ∧
        out = (if limit = 0 then all else all.take limit).map listed ∧
        (limit ≠ 0 → out.length ≤ limit) ∧
        ∀ v ∈ all, (listed v).ssts = v.ssts.flatten.length ∧ (listed v).ts = v.ts ∧
          (listed v).bytes =
            min (v.ssts.flatten.filterMap (fun e => e.info.stats.map (fun s => s.bytes))).sum (2 ^ 64 - 1) ∧
          ((listed v).levels = 0 ↔ v.ssts.flatten = []) := by
  intro s
  obtain ⟨n, _, hi⟩ := inv_run hn ops (inv_new ext x cap t sv)
  change Inv ext x t n s at hi
  obtain ⟨all, h1, h2, h3⟩ := listVersions_spec hi.good t limit
  refine ⟨all, h1, fun v => (h2 v).trans (readVersion_some hi.good).symm, _, ?_, rfl, ?_, ?_⟩
  · unfold TimeTravel.listVersions
    rw [h3]
  · intro h0
    rw [if_neg h0, List.length_map, List.length_take]
    exact Nat.min_le_left _ _
  · intro v _
    refine ⟨by simp [listed, List.length_flatten], rfl, satSum_le _, ?_⟩
    simp only [listed, List.length_eq_zero_iff, List.filter_eq_nil_iff, List.flatten_eq_nil_iff]
    simp

section Example
open C38

/-- Two rows, each written and flushed. -/
def exTwo : List (Lsm.Op Nat Nat) :=
  [.write (.put [(11, 0)])] ++ flushOps [seg 1] ++ [.write (.put [(21, 1)])] ++ flushOps [seg 1, seg 2] ++
  [.write (.put [(31, 2)])]

/-- **C44 is false** (F11): numbers of versions are compared with commit timestamps. Rows are written at the
timestamps 0 and 1, each is flushed. A snapshot at timestamp 1 reads version 1, which has only the first table;
the row written at timestamp 1 is missing, although a scan of the current state at timestamp 1 has it. -/
theorem time_travel_hides_a_row :
    (Lsm.run exExt exX 1 (Db.new 4 1 0) exTwo).1 = true ∧
    Visible (· ∈ logOf exExt exTwo) 1 2 21 ∧
    (scanAt 1 (exS exTwo) 1).map rowsOf = some [(1, 11)] ∧
    (scanAll 1 (exS exTwo) 1).map rowsOf = some [(1, 11), (2, 21)] := by
  refine ⟨by decide +kernel, ⟨1, by decide, by decide, ?_⟩, by decide +kernel, by decide +kernel⟩
  have : ∀ u ∈ logOf exExt exTwo, u.key = 2 → u.ts ≤ 1 → u.ts ≤ 1 := by decide
  exact fun u hu => this u hu

/-- Many rows, then one flush. -/
def exMany : List (Lsm.Op Nat Nat) :=
  [.write (.put [(11, 0)]), .write (.put [(21, 1)]), .write (.put [(31, 2)]), .write (.put [(41, 3)])] ++ flushOps [seg 1]

/-- **C44 is false** as documented: a timestamp out of `list_versions`, given to `snapshot_at`, does not show
the state of that version. The only version listed holds four rows and has timestamp 1; the snapshot shows two
of them. -/
theorem a_listed_version_is_not_shown :
    TimeTravel.listVersions (exS exMany).kv 1 0 = .ok [⟨1, 1, 4, 1⟩] ∧
    ((latestFiles 1 (exS exMany)).map (fun fs => fs.map (fun f => f.data))) =
      some [[(⟨1, 0⟩, 11), (⟨2, 1⟩, 21), (⟨3, 2⟩, 31), (⟨4, 3⟩, 41)]] ∧
    (scanAt 1 (exS exMany) 1).map rowsOf = some [(1, 11), (2, 21)] := by
  refine ⟨by decide +kernel, by decide +kernel, by decide +kernel⟩

/-- The hypotheses of the positive theorem hold for both histories, at timestamps past the last version. -/
example : NoRestart exTwo ∧ NoCompaction exTwo ∧ (Lsm.run exExt exX 1 (Db.new 4 1 0) exTwo).1 = true ∧
    (scanAt 1 (exS exTwo) 2).map rowsOf = some [(1, 11), (2, 21), (3, 31)] := by
  refine ⟨?_, ?_, by decide +kernel, by decide +kernel⟩
  · intro cap h; simp [exTwo, flushOps] at h
  · intro i h; simp [exTwo, flushOps] at h

example : ∀ k v, Published (exS exTwo) 1 k v → k ≤ 2 := by
  intro k v h
  have hc : (exS exTwo).kv.length = 4 := by decide +kernel
  by_contra hk
  have hi : Inv exExt exX 1 2 (exS exTwo) := by
    obtain ⟨n, _, hi⟩ := inv_run (x := exX) (by decide) exTwo (inv_new exExt exX 4 1 0)
    have : n = 2 := by
      obtain ⟨hd, hreg⟩ := hi.reg
      have h1 := hreg.head
      have h2 : kget (Lsm.run exExt exX 1 (Db.new 4 1 0) exTwo).2.kv (.head 1) =
        some (.head ⟨1, 0, some (seg 1), some 2⟩) := by decide +kernel
      rw [h2] at h1
      cases h1
      have h3 := hreg.last
      unfold Lemmas.Manifest.lastOf at h3
      split_ifs at h3
      cases h3; rfl
    rw [← this]; exact hi
  obtain ⟨hd, hreg⟩ := hi.reg
  have := (Lemmas.Lsm.at_le hreg (published_iff.1 h)).2
  omega

end Example

end Tonbo.Props.C44
