import Verif.Spec.CatalogView
import Verif.Lemmas.Manifest

/-!
# Lemmas on table registration
-/

namespace Tonbo.Lemmas.Catalog
open Tonbo.Model Tonbo.Model.Catalog Tonbo.Spec.CatalogView
open Tonbo.Lemmas.Manifest (Good TableOk good_init good_apply good_nil step_keeps snapshotLatest_spec)

variable {P : Type}

theorem cget_cput (m : Kv) (k k' : Key) (v : Val) :
    cget (cput m k v) k' = if k' = k then some v else cget m k' := by
  unfold cget cput
  by_cases h : k' = k
  · subst h; simp
  · rw [if_neg h, List.find?_cons_of_neg (by simpa using fun h' => h h'.symm)]
    congr 1
    induction m with
    | nil => rfl
    | cons p m ih =>
      by_cases hp : p.1 = k
      · rw [List.filter_cons_of_neg (by simpa using hp), ih, List.find?_cons_of_neg]
        simp only [decide_eq_true_eq]
        intro h'; exact h (h' ▸ hp)
      · rw [List.filter_cons_of_pos (by simpa using hp)]
        by_cases hq : p.1 = k'
        · rw [List.find?_cons_of_pos (by simpa using hq), List.find?_cons_of_pos (by simpa using hq)]
        · rw [List.find?_cons_of_neg (by simpa using hq), List.find?_cons_of_neg (by simpa using hq), ih]

theorem first_append (ops more : List (Op P)) (n : String) :
    first (ops ++ more) n = (first ops n).or (first more n) := by
  unfold first
  rw [List.findSome?_append]

theorem idsOf_append : ∀ (ops more : List (Op P)), idsOf (ops ++ more) = idsOf ops ++ idsOf more
  | [], _ => rfl
  | o :: r, more => by
    cases o <;> simp only [List.cons_append, idsOf, idsOf_append r more]

/-- An identifier found in a history was drawn in it. -/
theorem first_id {ops : List (Op P)} {n : String} {d : Def} {i : Nat} (h : first ops n = some (d, i)) :
    i ∈ idsOf ops ∧ d.name = n := by
  induction ops with
  | nil => cases h
  | cons o r ih =>
    have e : first (o :: r) n = (attempt n o).or (first r n) := by
      unfold first
      rw [List.findSome?_cons]
      cases attempt n o <;> rfl
    rw [e] at h
    cases o with
    | init => exact ih h
    | edit t es x => exact ih h
    | register d' i' =>
      simp only [attempt] at h
      split_ifs at h with hn
      · cases h; exact ⟨by simp [idsOf], hn⟩
      · obtain ⟨a, b⟩ := ih h; exact ⟨by simp [idsOf, a], b⟩
    | half d' i' =>
      simp only [attempt] at h
      split_ifs at h with hn
      · cases h; exact ⟨by simp [idsOf], hn⟩
      · obtain ⟨a, b⟩ := ih h; exact ⟨by simp [idsOf, a], b⟩

/-- The catalog after a history of attempts. -/
structure Inv (c : Kv) (f : String → Option (Def × Nat)) (used : List Nat) : Prop where
  root : ∃ s, readRoot c = .ok s ∧ SMap.Sorted s.tables ∧
    (∀ i n, (i, n) ∈ s.tables ↔ ∃ d, f n = some (d, i)) ∧ s.ordinal = min s.tables.length (2 ^ 64 - 1)
  metas : ∀ i, (∃ n d, f n = some (d, i) ∧ cget c (.table i) = some (.table (newMeta d i))) ∨
    ((∀ n d, f n ≠ some (d, i)) ∧ cget c (.table i) = none)
  name : ∀ n d i, f n = some (d, i) → d.name = n ∧ i ∈ used

theorem inv_nil : Inv [] (fun _ => none) [] :=
  ⟨⟨⟨[], 0⟩, rfl, List.Pairwise.nil, by simp, rfl⟩, fun i => .inr ⟨by simp, rfl⟩, by simp⟩

theorem findByName_some {s : State} {n : String} {i : Nat} (h : findByName s n = some i) : (i, n) ∈ s.tables := by
  unfold findByName at h
  cases hf : s.tables.find? (fun p => decide (p.2 = n)) with
  | none => rw [hf] at h; cases h
  | some p =>
    rw [hf] at h
    have h1 := List.mem_of_find?_eq_some hf
    have h2 := List.find?_some hf
    simp only [decide_eq_true_eq] at h2
    cases h
    rw [← h2]; exact h1

theorem findByName_none {s : State} {n : String} (h : findByName s n = none) (i : Nat) : (i, n) ∉ s.tables := by
  unfold findByName at h
  rw [Option.map_eq_none_iff, List.find?_eq_none] at h
  intro hm
  have := h _ hm
  simp at this

/-- A compatible definition with the same name is the same definition. -/
theorem compat_spec {d0 d : Def} (i : Nat) (hn : d0.name = d.name) :
    (d = d0 ∧ compat (newMeta d0 i) d = .ok ()) ∨ (d ≠ d0 ∧ compat (newMeta d0 i) d = .error .conflict) := by
  unfold compat newMeta
  obtain ⟨a, b, c, e, f⟩ := d
  obtain ⟨a', b', c', e', f'⟩ := d0
  simp only at hn
  subst hn
  simp only [Def.mk.injEq, true_and, ne_eq]
  by_cases h1 : b' = b
  · by_cases h2 : c' = c
    · by_cases h3 : f' = f
      · by_cases h4 : e' = e
        · left; subst h1 h2 h3 h4; simp
        · right; subst h1 h2 h3; simp [h4]; intro h; exact h4 h.symm
      · right; subst h1 h2; simp [h3]; intro _ h; exact h3 h.symm
    · right; subst h1; simp [h2]; intro h; exact absurd h.symm h2
  · right; simp [h1]; intro h; exact absurd h.symm h1

/-- One registration in a reachable catalog. -/
theorem registerCatalog_spec {c : Kv} {f : String → Option (Def × Nat)} {used : List Nat} (hi : Inv c f used)
    (d : Def) (i : Nat) :
    (∃ i0, f d.name = some (d, i0) ∧ registerCatalog c d i = (c, .ok (newMeta d i0))) ∨
    (∃ d0 i0, f d.name = some (d0, i0) ∧ d ≠ d0 ∧ registerCatalog c d i = (c, .error .conflict)) ∨
    (∃ s, f d.name = none ∧ readRoot c = .ok s ∧
      registerCatalog c d i = (create c s d i, .ok (newMeta d i))) := by
  obtain ⟨s, hs, _, hm, _⟩ := hi.root
  unfold registerCatalog
  rw [hs]
  simp only
  cases hf : findByName s d.name with
  | none =>
    right; right
    refine ⟨s, ?_, rfl, rfl⟩
    cases hfn : f d.name with
    | none => rfl
    | some q => exact absurd ((hm q.2 d.name).2 ⟨q.1, by rw [hfn]⟩) (findByName_none hf q.2)
  | some t =>
    simp only
    obtain ⟨d0, hd0⟩ := (hm t d.name).1 (findByName_some hf)
    have hn := (hi.name _ _ _ hd0).1
    have hr : readMeta c t = .ok (newMeta d0 t) := by
      rcases hi.metas t with ⟨n', d', hd', hg⟩ | ⟨hno, _⟩
      · have : (t, n') ∈ s.tables := (hm t n').2 ⟨d', hd'⟩
        have h2 := findByName_some hf
        have hnn : n' = d.name := by
          have := SMap.sorted_unique ‹SMap.Sorted s.tables› this h2 rfl
          exact congrArg Prod.snd this
        subst hnn
        rw [hd0] at hd'
        cases hd'
        unfold readMeta
        rw [hg]; rfl
      · exact absurd hd0 (hno _ _)
    rw [hr]
    simp only
    rcases compat_spec (d := d) t hn with ⟨e, hc⟩ | ⟨e, hc⟩
    · subst e
      left
      exact ⟨t, hd0, by rw [hc]⟩
    · right; left
      exact ⟨d0, t, hd0, e, by rw [hc]⟩

theorem insert_length {β : Type} (i : Nat) (v : β) : ∀ {l : List (Nat × β)}, (∀ p ∈ l, p.1 ≠ i) →
    (SMap.insert i v l).length = l.length + 1
  | [], _ => rfl
  | (a, b) :: l, h => by
    unfold SMap.insert
    split
    · rfl
    · rw [if_neg (fun he => h (a, b) List.mem_cons_self he.symm), List.length_cons,
        insert_length i v (fun p hp => h p (List.mem_cons_of_mem _ hp)), List.length_cons]

/-- Registering keeps the catalog in order. -/
theorem inv_register {c : Kv} {f : String → Option (Def × Nat)} {used : List Nat} (hi : Inv c f used)
    (d : Def) (i : Nat) (hfresh : i ∉ used) :
    Inv (registerCatalog c d i).1 (fun n => (f n).or (if d.name = n then some (d, i) else none)) (i :: used) := by
  have same : ∀ q, f d.name = some q →
      (fun n => (f n).or (if d.name = n then some (d, i) else none)) = f := by
    intro q hq
    funext n
    by_cases hn : d.name = n
    · subst hn; rw [hq]; rfl
    · simp [hn]
  have weaken : Inv c f (i :: used) :=
    ⟨hi.root, hi.metas, fun n d' i' h => ⟨(hi.name n d' i' h).1, List.mem_cons_of_mem _ (hi.name n d' i' h).2⟩⟩
  rcases registerCatalog_spec hi d i with ⟨i0, hf, e⟩ | ⟨d0, i0, hf, _, e⟩ | ⟨s, hf, hs, e⟩
  · rw [e, same _ hf]; exact weaken
  · rw [e, same _ hf]; exact weaken
  · rw [e]
    obtain ⟨s', hs', hsort, hm, hord⟩ := hi.root
    rw [hs] at hs'; cases hs'
    have hnot : ∀ n d', f n ≠ some (d', i) := fun n d' h => hfresh (hi.name _ _ _ h).2
    have key : ∀ n d' j, ((f n).or (if d.name = n then some (d, i) else none)) = some (d', j) ↔
        f n = some (d', j) ∨ (d.name = n ∧ d' = d ∧ j = i) := by
      intro n d' j
      by_cases hn : d.name = n
      · subst hn
        rw [hf]
        simp [eq_comm]
      · simp [hn]
    refine ⟨⟨⟨SMap.insert i d.name s.tables, bump s.ordinal⟩, ?_, SMap.sorted_insert hsort, ?_, ?_⟩, ?_, ?_⟩
    · unfold readRoot create
      rw [cget_cput, if_neg (by simp), cget_cput, if_pos rfl]; rfl
    · intro j n
      rw [SMap.mem_insert hsort]
      simp only [Prod.mk.injEq, hm, key]
      constructor
      · rintro (⟨rfl, rfl⟩ | ⟨⟨d', h⟩, _⟩)
        · exact ⟨d, .inr ⟨rfl, rfl, rfl⟩⟩
        · exact ⟨d', .inl h⟩
      · rintro ⟨d', h | ⟨rfl, rfl, rfl⟩⟩
        · exact .inr ⟨⟨d', h⟩, fun hj => by subst hj; exact hnot _ _ h⟩
        · exact .inl ⟨rfl, rfl⟩
    · rw [insert_length i d.name (fun p hp he => by
        obtain ⟨d', h'⟩ := (hm p.1 p.2).1 hp
        rw [he] at h'
        exact hnot _ _ h')]
      simp only [bump, hord]
      omega
    · intro j
      by_cases hj : j = i
      · subst hj
        left
        refine ⟨d.name, d, (key _ _ _).2 (.inr ⟨rfl, rfl, rfl⟩), ?_⟩
        unfold create
        rw [cget_cput, if_pos rfl]
      · have hg : cget (create c s d i) (.table j) = cget c (.table j) := by
          unfold create
          rw [cget_cput, if_neg (by simpa using hj), cget_cput, if_neg (by simp)]
        rw [hg]
        rcases hi.metas j with ⟨n, d', h, hc⟩ | ⟨h, hc⟩
        · exact .inl ⟨n, d', (key _ _ _).2 (.inl h), hc⟩
        · right
          refine ⟨fun n d' h' => ?_, hc⟩
          rcases (key _ _ _).1 h' with h' | ⟨_, _, h'⟩
          · exact h _ _ h'
          · exact hj h'
    · intro n d' j h
      rcases (key _ _ _).1 h with h | ⟨rfl, rfl, rfl⟩
      · exact ⟨(hi.name _ _ _ h).1, List.mem_cons_of_mem _ (hi.name _ _ _ h).2⟩
      · exact ⟨rfl, List.mem_cons_self⟩

theorem inv_init {c : Kv} {f : String → Option (Def × Nat)} {used : List Nat} (hi : Inv c f used) :
    Inv (initRoot c) f used := by
  unfold initRoot
  cases h : cget c .root with
  | some v => exact hi
  | none =>
    simp only
    obtain ⟨s, hs, hsort, hm, _⟩ := hi.root
    have : s = ⟨[], 0⟩ := by
      unfold readRoot at hs
      rw [h] at hs
      cases hs; rfl
    subst this
    refine ⟨⟨⟨[], 0⟩, ?_, hsort, hm, rfl⟩, fun j => ?_, hi.name⟩
    · unfold readRoot; rw [cget_cput, if_pos rfl]; rfl
    · rw [cget_cput, if_neg (by simp)]; exact hi.metas j

/-- Every history leaves the catalog in order, if no identifier is drawn twice. -/
theorem inv_run (ops : List (Op P)) (h : (idsOf ops).Nodup) :
    Inv (run ops).cat (first ops) (idsOf ops).reverse := by
  induction ops using List.reverseRecOn with
  | nil => exact inv_nil
  | append_singleton ops o ih =>
    have hrun : run (ops ++ [o]) = step (run ops) o := by unfold run; rw [List.foldl_append]; rfl
    rw [idsOf_append] at h ⊢
    have ih := ih (List.Nodup.of_append_left h)
    rw [hrun]
    have hf : first (ops ++ [o]) = fun n => (first ops n).or (attempt n o) := by
      funext n
      rw [first_append]
      congr 1
      unfold first
      rw [List.findSome?_cons]
      cases attempt n o <;> rfl
    rw [hf]
    have hno : ∀ (g : String → Option (Def × Nat)), (fun n => (g n).or none) = g := by
      intro g; funext n; simp
    cases o with
    | init =>
      simp only [step, attempt, idsOf, List.append_nil, hno]
      exact inv_init ih
    | edit t es x =>
      simp only [step, attempt, idsOf, List.append_nil, hno]
      exact ih
    | register d i =>
      have hi : i ∉ (idsOf ops).reverse := by
        intro hc
        exact (List.nodup_append.1 h).2.2 i (List.mem_reverse.1 hc) i (by simp [idsOf]) rfl
      have := inv_register ih d i hi
      simp only [attempt, idsOf, List.reverse_append, List.reverse_cons, List.reverse_nil, List.nil_append,
        List.singleton_append]
      have hc : (step (run ops) (.register d i)).cat = (registerCatalog (run ops).cat d i).1 := by
        simp only [step, Catalog.register]
        cases registerCatalog (run ops).cat d i with
        | mk a b => cases b <;> rfl
      rw [hc]; exact this
    | half d i =>
      have hi : i ∉ (idsOf ops).reverse := by
        intro hc
        exact (List.nodup_append.1 h).2.2 i (List.mem_reverse.1 hc) i (by simp [idsOf]) rfl
      simp only [attempt, idsOf, List.reverse_append, List.reverse_cons, List.reverse_nil, List.nil_append,
        List.singleton_append, step]
      exact inv_register ih d i hi

/-- The head written by a registration. -/
theorem ver_register (b : Both P) (d : Def) (i : Nat) :
    (∃ t, (Catalog.register b d i).2 = .ok t ∧
      (Catalog.register b d i).1.ver = Manifest.step b.ver (.init t.id t.version)) ∨
    (∃ e, (Catalog.register b d i).2 = .error e ∧ (Catalog.register b d i).1.ver = b.ver) := by
  unfold Catalog.register
  cases registerCatalog b.cat d i with
  | mk c r =>
    cases r with
    | error e => exact .inr ⟨e, rfl, rfl⟩
    | ok t => exact .inl ⟨t, rfl, rfl⟩

/-- One call writes to the version manifest like one of its own calls, or not at all. -/
theorem ver_step (b : Both P) (o : Op P) :
    (step b o).ver = b.ver ∨ ∃ o', (step b o).ver = Manifest.step b.ver o' := by
  cases o with
  | init => exact .inl rfl
  | half d i => exact .inl rfl
  | edit t es x => exact .inr ⟨.apply t es x, rfl⟩
  | register d i =>
    rcases ver_register b d i with ⟨t, _, h⟩ | ⟨_, _, h⟩
    · exact .inr ⟨_, h⟩
    · exact .inl h

theorem good_step {m : Manifest.Kv P} (h : Good m) (o : Manifest.Op P) : Good (Manifest.step m o) :=
  Tonbo.Lemmas.Manifest.good_foldl [o] m h

theorem good_ver : ∀ (ops : List (Op P)) (b : Both P), Good b.ver → Good (ops.foldl step b).ver
  | [], _, h => h
  | o :: r, b, h => good_ver r (step b o) (by
      rcases ver_step b o with e | ⟨o', e⟩ <;> rw [e]
      · exact h
      · exact good_step h o')

/-- Heads stay. -/
theorem ver_keeps : ∀ (ops : List (Op P)) (b : Both P), Good b.ver → ∀ {t n : Nat} {h : Manifest.Head},
    TableOk b.ver t n h → ∃ n' h', n ≤ n' ∧ TableOk (ops.foldl step b).ver t n' h'
  | [], _, _, _, n, h, hok => ⟨n, h, Nat.le_refl _, hok⟩
  | o :: r, b, hg, t, n, h, hok => by
    rcases ver_step b o with e | ⟨o', e⟩
    · exact ver_keeps r (step b o) (by rw [e]; exact hg) (by rw [e]; exact hok)
    · obtain ⟨n1, h1, l1, k1, _⟩ := step_keeps hg o' hok
      obtain ⟨n2, h2, l2, k2⟩ := ver_keeps r (step b o) (by rw [e]; exact good_step hg o') (by rw [e]; exact k1)
      exact ⟨n2, h2, Nat.le_trans l1 l2, k2⟩

/-- After installing a head there is one. -/
theorem init_ok {m : Manifest.Kv P} (hg : Good m) (t s : Nat) :
    ∃ n h, TableOk (Manifest.step m (.init t s)) t n h := by
  rcases (good_init hg t s).tbl t with ⟨h, _⟩ | h
  · exfalso
    unfold Manifest.initHead at h
    cases hh : Manifest.kget m (.head t) with
    | some v => rw [hh] at h; simp only at h; rw [hh] at h; cases h
    | none => rw [hh] at h; simp [Tonbo.Lemmas.Manifest.get_put] at h
  · exact h

end Tonbo.Lemmas.Catalog
