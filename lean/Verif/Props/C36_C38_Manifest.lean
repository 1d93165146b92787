import Verif.Lemmas.Manifest

/-!
# C36, C37, C38 (manifest part): versions, edits, conditional publishing
-/

namespace Tonbo.Props.C36
open Tonbo.Model.Manifest Tonbo.Spec Tonbo.Lemmas.Manifest

variable {P : Type}

/-- **C36.** A version that can be read stays exactly the same, whatever is called afterwards. -/
theorem published_versions_never_change (ops more : List (Op P)) (t k : Nat) (v : Version P)
    (h : readVersion (run ops) t k = .ok (some v)) :
    readVersion (run (ops ++ more)) t k = .ok (some v) := by
  have hg := good_run ops
  have hg' := good_run (ops ++ more)
  rw [readVersion_some hg] at h
  rw [readVersion_some hg']
  rcases hg.tbl t with ⟨_, h2, _⟩ | ⟨n, hd, hok⟩
  · rw [h2 k] at h; cases h
  · obtain ⟨n', h', _, _, hk⟩ := foldl_keeps more (run ops) hg hok
    have hkn : k ≤ n := by
      by_contra hc
      rw [hok.none k (by omega)] at h; cases h
    have := hk k hkn
    unfold run at this ⊢
    rw [List.foldl_append, this]
    exact h

/-- **C36.** A successful call publishes a version with a number larger than all versions of the table
before; readers of the latest version see exactly it from then on, and other tables are untouched. -/
theorem apply_publishes_next (ops : List (Op P)) (t : Nat) (es : List (Edit P)) (x : Option (Option Nat))
    (m' : Kv P) (n : Nat) (h : apply (run ops) t es x = (m', .ok n)) :
    (∀ k v, readVersion (run ops) t k = .ok (some v) → k < n) ∧
    (∃ hd v, snapshotLatest m' t = .ok (hd, some v) ∧ hd.last = some n ∧ v.ts = n ∧
      readVersion m' t n = .ok (some v) ∧ VersionOk v ∧ walFloor m' t = .ok v.floor) ∧
    ∀ t', t' ≠ t → snapshotLatest m' t' = snapshotLatest (run ops) t' := by
  have hg := good_run ops
  rcases apply_cases hg t es x with ⟨_, e⟩ | ⟨_, _, e⟩ |
    ⟨n0, hd, hok, _, ⟨_, _, e⟩ | ⟨_, v, _, _, _, ⟨_, e⟩ | ⟨_, v', _, hts, htb, hv, e⟩⟩⟩ <;>
    rw [e] at h <;> simp only [Prod.mk.injEq, Except.ok.injEq, reduceCtorEq, and_false] at h
  obtain ⟨rfl, rfl⟩ := h
  have hok' := publish_ok hok hts htb hv
  refine ⟨?_, ?_, ?_⟩
  · intro k u hu
    rw [readVersion_some hg] at hu
    by_contra hc
    rw [hok.none k (by omega)] at hu; cases hu
  · rcases snapshotLatest_spec hok' with ⟨h0, _⟩ | ⟨_, u, hu, huts, hs⟩
    · omega
    · refine ⟨_, u, hs, rfl, huts, (readVersion_some (good_publish hg hok hts htb hv)).2 hu, ?_, ?_⟩
      · obtain ⟨u', hu', _, _, ok⟩ := hok'.some (n0 + 1) (by omega) (Nat.le_refl _)
        rw [hu] at hu'; cases hu'; exact ok
      · have := hok'.floorN u hu
        have h2 := hok'.walFloor
        unfold walFloor
        rw [h2]
        simp only at this ⊢
        rw [this]
        cases u.floor <;> rfl
  · intro t' ht
    unfold snapshotLatest readHead readVersion
    have e1 : kget (publish (run ops) t hd v').1 (.head t') = kget (run ops) (.head t') := by
      rw [publish_get]; simp [ht]
    have e2 : ∀ k, kget (publish (run ops) t hd v').1 (.version t' k) = kget (run ops) (.version t' k) := by
      intro k; rw [publish_get]; simp [ht]
    rw [e1]
    simp only [e2]

/-- **C36.** A failing call changes nothing. -/
theorem failed_apply_changes_nothing (m m' : Kv P) (t : Nat) (es : List (Edit P)) (x : Option (Option Nat))
    (e : Err) (h : apply m t es x = (m', .error e)) : m' = m := by
  unfold apply at h
  split_ifs at h
  · exact (Prod.mk.inj h).1.symm
  · split at h
    · exact (Prod.mk.inj h).1.symm
    · split at h
      · exact (Prod.mk.inj h).1.symm
      · split_ifs at h
        · exact (Prod.mk.inj h).1.symm
        · split at h
          · exact (Prod.mk.inj h).1.symm
          · split at h
            · exact (Prod.mk.inj h).1.symm
            · simp at h

/-- **C36.** The latest version read is the one with the largest number; a reader never meets a head
that names a missing version or a value of the wrong kind. It fails only for a table that was never
registered. -/
theorem latest_is_largest (ops : List (Op P)) (t : Nat) :
    (snapshotLatest (run ops) t = .error .noHead ∧ ∀ s, Op.init t s ∉ ops) ∨
    (∃ hd, snapshotLatest (run ops) t = .ok (hd, none) ∧ ∀ k, readVersion (run ops) t k = .ok none) ∨
    (∃ hd v, snapshotLatest (run ops) t = .ok (hd, some v) ∧ readVersion (run ops) t v.ts = .ok (some v) ∧
      ∀ k u, readVersion (run ops) t k = .ok (some u) → 1 ≤ k ∧ k ≤ v.ts ∧ u.ts = k) := by
  have hg := good_run ops
  rcases hg.tbl t with ⟨h1, _⟩ | ⟨n, hd, hok⟩
  · left
    refine ⟨by simp [snapshotLatest, readHead, h1], ?_⟩
    intro s hs
    obtain ⟨a, b, rfl⟩ := List.append_of_mem hs
    have ha := good_run (P := P) a
    have hi := good_init ha t s
    have hhead : ∃ n h, TableOk (initHead (run a) t (newHead t s)) t n h := by
      rcases hi.tbl t with ⟨h, _⟩ | h
      · exfalso
        unfold initHead at h
        cases hc : kget (run a) (.head t) with
        | none => rw [hc] at h; simp [get_put] at h
        | some v => rw [hc] at h; simp only at h; rw [hc] at h; cases h
      · exact h
    obtain ⟨n, h, hok⟩ := hhead
    obtain ⟨n', h', _, hok', _⟩ := foldl_keeps b _ hi hok
    have e : run (a ++ Op.init t s :: b) = b.foldl step (initHead (run a) t (newHead t s)) := by
      simp [run, List.foldl_append, step]
    rw [e, hok'.head] at h1
    cases h1
  · right
    rcases snapshotLatest_spec hok with ⟨rfl, hs⟩ | ⟨hn, v, hv, hts, hs⟩
    · left
      refine ⟨hd, hs, fun k => ?_⟩
      unfold readVersion
      rw [hok.none k (by omega)]
    · right
      subst hts
      refine ⟨hd, v, hs, (readVersion_some hg).2 hv, ?_⟩
      intro k u hu
      rw [readVersion_some hg] at hu
      have hk : 1 ≤ k ∧ k ≤ v.ts := by
        by_contra hc
        rw [hok.none k (by omega)] at hu; cases hu
      obtain ⟨u', hu', hts', _⟩ := hok.some k hk.1 hk.2
      rw [hu] at hu'; cases hu'
      exact ⟨hk.1, hk.2, hts'⟩

/-- `list_versions`: all versions, newest first, without gaps in the numbering; a limit keeps the
newest ones. -/
theorem list_versions_exact (ops : List (Op P)) (t limit : Nat) :
    ∃ all : List (Version P), all.Pairwise (fun a b => b.ts < a.ts) ∧
      (∀ v, v ∈ all ↔ readVersion (run ops) t v.ts = .ok (some v)) ∧
      listVersions (run ops) t limit = .ok (if limit = 0 then all else all.take limit) := by
  obtain ⟨all, h1, h2, h3⟩ := listVersions_spec (good_run ops) t limit
  exact ⟨all, h1, fun v => by rw [h2, readVersion_some (good_run ops)], h3⟩

/-! A concrete history: two tables, a failing edit, a conflicting one. -/
section Example

def exOps : List (Op Nat) :=
  [.init 1 7, .init 2 7, .apply 1 [.addSsts 0 [⟨3, none, 30⟩, ⟨1, some [5], 10⟩], .setWal [⟨4, 40, 0, 9⟩, ⟨2, 20, 3, 5⟩]] none,
   .apply 1 [.removeSsts 5 [1]] none, .apply 2 [] none,
   .apply 1 [.removeSsts 0 [1, 3], .addSsts 1 [⟨8, none, 80⟩]] (some (some 1)),
   .apply 1 [.addSsts 0 [⟨9, none, 90⟩]] (some (some 1))]

example : readVersion (run (exOps.take 3)) 1 1 =
    .ok (some ⟨1, 1, [[⟨1, some [5], 10⟩, ⟨3, none, 30⟩]], [⟨2, 20, 3, 5⟩, ⟨4, 40, 0, 9⟩], some ⟨2, 20, 3, 5⟩, none⟩) := rfl

example : snapshotLatest (run exOps) 1 =
    .ok (⟨1, 7, some ⟨2, 20, 3, 5⟩, some 2⟩,
      some ⟨1, 2, [[], [⟨8, none, 80⟩]], [⟨2, 20, 3, 5⟩, ⟨4, 40, 0, 9⟩], some ⟨2, 20, 3, 5⟩, none⟩) := rfl

example : (apply (run (exOps.take 6)) 1 [.addSsts 0 [⟨9, none, 90⟩]] (some (some 1))).2 = .error .casConflict := rfl
example : (apply (run (exOps.take 2)) 1 [.addSsts 0 [(⟨9, none, 90⟩ : Entry Nat)]] none).2 = .ok 1 := rfl

end Example

end Tonbo.Props.C36

namespace Tonbo.Props.C37
open Tonbo.Model.Manifest Tonbo.Spec Tonbo.Lemmas.Manifest

variable {P : Type}

/-- **C37.** Applied to a state without repeated identifiers, edits either remove from a missing level
and fail, or give a state whose levels hold exactly what the edits mean, ascending by identifier,
without empty levels at the end, with the segments last set and a least one as floor. -/
theorem edits_mean_what_they_say (v : Version P) (f : LevelMap P) (es : List (Edit P))
    (hn : ∀ b ∈ v.ssts, (b.map (·.id)).Nodup) (hl : Lists v.ssts f) :
    (Refused v.ssts.length es ∧ applyEdits v es = .error .missingLevel) ∨
    (¬ Refused v.ssts.length es ∧ ∃ v', applyEdits v es = .ok v' ∧ VersionOk v' ∧
      Lists v'.ssts (es.foldl editMeans f) ∧ v'.table = v.table ∧ v'.ts = v.ts ∧
      v'.wal.Perm (walAfter v.wal es) ∧ v'.watermark = watermarkAfter v.watermark es) :=
  applyEdits_spec v es f hn hl

/-- **C37**, for published versions: what the call does to the latest version, and that it fails
otherwise, in every history. -/
theorem publish_means_what_it_says (ops : List (Op P)) (t : Nat) (es : List (Edit P)) (hd : Head) (v : Version P)
    (hs : snapshotLatest (run ops) t = .ok (hd, some v)) (hne : es ≠ []) :
    (∀ l, (v.ssts.getD l []).Pairwise (fun a b => a.id < b.id)) ∧
    ∀ f, Lists v.ssts f →
      (Refused v.ssts.length es ∧ apply (run ops) t es none = (run ops, .error .missingLevel)) ∨
      (¬ Refused v.ssts.length es ∧ ∃ m' hd' v', apply (run ops) t es none = (m', .ok (v.ts + 1)) ∧
        snapshotLatest m' t = .ok (hd', some v') ∧ v'.ts = v.ts + 1 ∧
        Lists v'.ssts (es.foldl editMeans f) ∧
        v'.wal.Perm (walAfter v.wal es) ∧ v'.watermark = watermarkAfter v.watermark es) := by
  have hg := good_run ops
  rcases hg.tbl t with ⟨h1, _⟩ | ⟨n, hd0, hok⟩
  · simp [snapshotLatest, readHead, h1] at hs
  · rcases snapshotLatest_spec hok with ⟨_, hs'⟩ | ⟨hn, v0, hv0, hts, hs'⟩
    · rw [hs'] at hs; simp at hs
    · rw [hs'] at hs
      simp only [Except.ok.injEq, Prod.mk.injEq, Option.some.injEq] at hs
      obtain ⟨rfl, rfl⟩ := hs
      obtain ⟨vb, b1, _, _, b4, _, b6⟩ := base_spec hok
      rw [hv0] at b6
      have : v0 = vb := by simpa using b6 hn
      subst this
      refine ⟨fun l => ?_, fun f hf => ?_⟩
      · by_cases hb : v0.ssts.getD l [] = []
        · rw [hb]; exact List.Pairwise.nil
        · exact b4.asc _ (lists_getD rfl hb)
      · rcases apply_cases hg t es none with ⟨h, _⟩ | ⟨_, h, _⟩ |
          ⟨n', hd', hok', _, ⟨h, _⟩ | ⟨_, v, c1, _, _, ⟨r, e⟩ | ⟨r, v', r2, hts', htb', hv', e⟩⟩⟩
        · exact absurd h hne
        · rw [hok.head] at h; cases h
        · exact absurd rfl h
        · obtain ⟨rfl, rfl⟩ := tableOk_unique hok hok'
          rw [b1] at c1; cases c1
          exact .inl ⟨r, e⟩
        · obtain ⟨rfl, rfl⟩ := tableOk_unique hok hok'
          rw [b1] at c1; cases c1
          refine .inr ⟨r, _, ⟨hd0.table, hd0.schemaVersion, v'.floor, some (n + 1)⟩,
            { v' with ts := n + 1 }, by rw [hts]; exact e, ?_, by rw [hts], ?_⟩
          · have hok2 := publish_ok hok hts' htb' hv'
            rcases snapshotLatest_spec hok2 with ⟨h, _⟩ | ⟨_, u, hu, _, hs2⟩
            · omega
            · rw [publish_get, hts'] at hu
              simp at hu
              rw [hs2, hu]
          · rcases applyEdits_spec v0 es f (noDup_of_ok b4) hf with ⟨r', _⟩ | ⟨_, v2, q1, _, q3, _, _, q6, q7⟩
            · exact absurd r' r
            · rw [r2] at q1; cases q1
              exact ⟨q3, q6, q7⟩

/-! The hypotheses on a concrete version with two levels; the second list of edits is refused. -/
example : Lists [[⟨1, none, 10⟩, ⟨3, none, 30⟩], [(⟨2, none, 20⟩ : Entry Nat)]]
    (fun l i => ([[⟨1, none, 10⟩, ⟨3, none, 30⟩], [(⟨2, none, 20⟩ : Entry Nat)]].getD l []).find?
      (fun e => decide (e.id = i))) :=
  lists_of _ (by unfold NoDup; decide)
example : ¬ Refused 2 [Edit.removeSsts 1 [2], .addSsts 2 [(⟨9, none, 90⟩ : Entry Nat)], .removeSsts 2 [4]] := by
  simp [Refused]
example : Refused 2 [Edit.addSsts 5 ([] : List (Entry Nat)), .removeSsts 2 [4]] := by simp [Refused]
example : ∃ hd v, snapshotLatest (run C36.exOps) 1 = .ok (hd, some v) := ⟨_, _, rfl⟩

end Tonbo.Props.C37

namespace Tonbo.Props.C38
open Tonbo.Model.Manifest Tonbo.Spec Tonbo.Lemmas.Manifest

variable {P : Type}

/-- **C38**, conditional publishing: of two calls that expect the same head, the second fails if the
first succeeded, whatever happened in between, and leaves the manifest as it was. -/
theorem one_winner_per_head (ops between : List (Op P)) (t : Nat) (es es' : List (Edit P))
    (head : Option Nat) (m : Kv P) (n : Nat) (hne : es' ≠ [])
    (h : apply (run ops) t es (some head) = (m, .ok n)) :
    apply (between.foldl step m) t es' (some head) = (between.foldl step m, .error .casConflict) := by
  have hg := good_run ops
  rcases apply_cases hg t es (some head) with ⟨_, e⟩ | ⟨_, _, e⟩ |
    ⟨n0, hd, hok, _, ⟨_, _, e⟩ | ⟨hx, v, _, _, _, ⟨_, e⟩ | ⟨_, v', _, hts, htb, hv, e⟩⟩⟩ <;>
    rw [e] at h <;> simp only [Prod.mk.injEq, Except.ok.injEq, reduceCtorEq, and_false] at h
  obtain ⟨rfl, rfl⟩ := h
  have hx' : head = lastOf n0 := by simpa using hx
  have hg1 := good_publish hg hok hts htb hv
  obtain ⟨n2, h2, hle, hok2, _⟩ := foldl_keeps between _ hg1 (publish_ok hok hts htb hv)
  rcases apply_cases (good_foldl between _ hg1) t es' (some head) with ⟨h, _⟩ | ⟨_, h, _⟩ |
    ⟨n', hd', hok', _, ⟨_, _, e'⟩ | ⟨hx2, _⟩⟩
  · exact absurd h hne
  · rw [hok2.head] at h; cases h
  · exact e'
  · exfalso
    obtain ⟨rfl, rfl⟩ := tableOk_unique hok2 hok'
    have : head = lastOf n2 := by simpa using hx2
    rw [hx'] at this
    unfold lastOf at this
    split_ifs at this <;> first | omega | (simp at this; omega)

/-- A conditional call that succeeds replaces exactly the version its expected head names: the tables
it was planned on are the tables it edits. -/
theorem winner_edits_what_it_saw (ops : List (Op P)) (t : Nat) (es : List (Edit P))
    (hd : Head) (v : Option (Version P)) (between : List (Op P))
    (hs : snapshotLatest (run ops) t = .ok (hd, v)) (m : Kv P) (n : Nat)
    (h : apply (run (ops ++ between)) t es (some hd.last) = (m, .ok n)) :
    snapshotLatest (run (ops ++ between)) t = .ok (hd, v) := by
  have hg := good_run ops
  rcases hg.tbl t with ⟨h1, _⟩ | ⟨n0, hd0, hok⟩
  · simp [snapshotLatest, readHead, h1] at hs
  · have hhd : hd = hd0 := by
      rcases snapshotLatest_spec hok with ⟨_, hs'⟩ | ⟨_, _, _, _, hs'⟩ <;>
        rw [hs'] at hs <;> simp at hs <;> exact hs.1.symm
    subst hhd
    have e : run (ops ++ between) = between.foldl step (run ops) := by simp [run, List.foldl_append]
    rw [e] at h ⊢
    have hstay : ∀ (b : List (Op P)) (m : Kv P), Good m → TableOk m t n0 hd →
        (∃ n' h', TableOk (b.foldl step m) t n' h' ∧ lastOf n' = lastOf n0) →
        TableOk (b.foldl step m) t n0 hd ∧
          kget (b.foldl step m) (.version t n0) = kget m (.version t n0) := by
      intro b
      induction b with
      | nil => intro m _ hk _; exact ⟨hk, rfl⟩
      | cons o b ih =>
        intro m hm hk hlast
        obtain ⟨n1, h1, l1, k1, g1⟩ := step_keeps hm o hk
        obtain ⟨n2, h2, l2, k2, _⟩ := foldl_keeps b (step m o) (good_foldl [o] m hm) k1
        obtain ⟨n3, h3, k3, e3⟩ := hlast
        obtain ⟨rfl, rfl⟩ := tableOk_unique k2 k3
        have hn2 : n2 = n0 := by
          unfold lastOf at e3
          split_ifs at e3 <;> first | omega | (simp at e3; omega)
        have hn1 : n1 = n0 := by omega
        subst hn1
        have hh : h1 = hd := by
          cases o with
          | init t' s =>
            simp only [step, initHead] at k1
            cases hc : kget m (.head t') with
            | some w => rw [hc] at k1; exact (tableOk_unique k1 hk).2
            | none =>
              rw [hc] at k1
              have ht : t ≠ t' := by rintro rfl; rw [hk.head] at hc; cases hc
              have := k1.head
              simp [get_put, ht, hk.head] at this
              exact this.symm
          | apply t' es' x =>
            simp only [step] at k1
            rcases apply_cases hm t' es' x with ⟨_, e⟩ | ⟨_, _, e⟩ |
              ⟨n', hd', hok', _, ⟨_, _, e⟩ | ⟨_, v, _, _, _, ⟨_, e⟩ | ⟨_, v', _, hts, htb, hv, e⟩⟩⟩ <;>
              rw [e] at k1
            · exact (tableOk_unique k1 hk).2
            · exact (tableOk_unique k1 hk).2
            · exact (tableOk_unique k1 hk).2
            · exact (tableOk_unique k1 hk).2
            · by_cases ht : t = t'
              · subst ht
                obtain ⟨rfl, rfl⟩ := tableOk_unique hk hok'
                have := (tableOk_unique k1 (publish_ok hk hts htb hv)).1
                omega
              · have := k1.head
                rw [publish_get] at this
                simp [ht, hk.head] at this
                exact this.symm
        subst hh
        obtain ⟨r1, r2⟩ := ih (step m o) (good_foldl [o] m hm) k1 ⟨n2, h2, k2, by rw [hn2]⟩
        exact ⟨r1, by rw [List.foldl_cons, r2, g1 n1 (Nat.le_refl _)]⟩
    have hlast : ∃ n' h', TableOk (between.foldl step (run ops)) t n' h' ∧ lastOf n' = lastOf n0 := by
      rcases apply_cases (good_foldl between _ hg) t es (some hd.last) with ⟨_, e⟩ | ⟨_, _, e⟩ |
        ⟨n', hd', hok', _, ⟨_, _, e⟩ | ⟨hx, _⟩⟩
      · rw [e] at h; simp at h
      · rw [e] at h; simp at h
      · rw [e] at h; simp at h
      · refine ⟨n', hd', hok', ?_⟩
        have : hd.last = lastOf n' := by simpa using hx
        rw [← this, hok.last]
    obtain ⟨r1, r2⟩ := hstay between (run ops) hg hok hlast
    rcases snapshotLatest_spec hok with ⟨h0, hs'⟩ | ⟨h0, u, hu, _, hs'⟩
    · rw [hs'] at hs
      rcases snapshotLatest_spec r1 with ⟨_, hs2⟩ | ⟨h, _⟩
      · rw [hs2]; exact hs
      · omega
    · rw [hs'] at hs
      rcases snapshotLatest_spec r1 with ⟨h, _⟩ | ⟨_, u', hu', _, hs2⟩
      · omega
      · rw [r2, hu] at hu'
        cases hu'
        rw [hs2]; exact hs

/-! A winner and a loser: both planned from version 1 of the history of `C36.exOps`. -/
example : ∃ m n, apply (run (C36.exOps.take 3)) 1 [.addSsts 1 [(⟨8, none, 80⟩ : Entry Nat)]] (some (some 1)) = (m, .ok n) :=
  ⟨_, 2, rfl⟩
example : ∃ hd v, snapshotLatest (run (C36.exOps.take 3)) 1 = .ok (hd, v) ∧ hd.last = some 1 := ⟨_, _, rfl, rfl⟩

end Tonbo.Props.C38
