import Verif.Lemmas.CompactWeak
import Verif.Spec.CompactView

/-!
# Merging table files
-/

set_option linter.unusedSectionVars false

namespace Tonbo.Lemmas.Compact
open Tonbo.Model Tonbo.Model.Mem Tonbo.Model.Sst Tonbo.Model.Flush Tonbo.Model.Compact Tonbo.Spec
open Tonbo.Lemmas.Flush

variable {K R : Type} [LinearOrder K]

theorem fits_delivers {n : Nat} (hn : 0 < n) {f : File K R} (h : Fits n f) : Delivers (fileBatches n f) := by
  unfold fileBatches
  by_cases hx : f.dels = []
  · rw [hx, show chunks n ([] : List (KT K)).length [] = [] from rfl, zip_nil_right]
    exact delivers_data _ (chunks_ne hn _ _)
  by_cases hd : f.data = []
  · rw [hd, show chunks n ([] : List (KT K × R)).length [] = [] from rfl, zip_nil_left]
    exact delivers_del _ (chunks_ne hn _ _)
  rcases h with h | h | ⟨h1, h2⟩ | ⟨h1, p, h2, h3⟩ | ⟨h1, x, h2, h3⟩
  · exact absurd h hx
  · exact absurd h hd
  · rw [chunks_one hd (Nat.le_refl _) h1, chunks_one hx (Nat.le_refl _) h2]
    exact delivers_cons ⟨.data, by simpa [items] using hd⟩ (.inl rfl)
  · rw [chunks_one hx (Nat.le_refl _) h1]
    obtain ⟨m, hm⟩ : ∃ m, f.data.length = m + 1 :=
      ⟨f.data.length - 1, by have := List.length_pos_iff.2 hd; omega⟩
    obtain ⟨a, l, hal⟩ := List.exists_cons_of_ne_nil hd
    rw [hm]
    have hch : chunks n (m + 1) f.data = f.data.take n :: chunks n m (f.data.drop n) := by
      rw [hal, chunks]
    rw [hch, zipBatches, zip_nil_right]
    have hl := take_getLast? hn h2
    refine delivers_cons ⟨.del, by simpa [items] using hx⟩ (.inr ⟨.data, (p.1, some p.2), ?_, ?_, ?_⟩)
    · simp only [items, List.getLast?_map, hl, Option.map_some]
    · intro x hx'
      simp only [other, items, Option.getD_some, List.mem_map] at hx'
      obtain ⟨y, hy, rfl⟩ := hx'
      exact h3 y hy
    · intro b hb
      obtain ⟨d, hd', rfl⟩ := List.mem_map.1 hb
      exact ⟨by simpa [items] using chunks_ne hn _ _ d hd', by simp [other, items]⟩
  · rw [chunks_one hd (Nat.le_refl _) h1]
    obtain ⟨m, hm⟩ : ∃ m, f.dels.length = m + 1 :=
      ⟨f.dels.length - 1, by have := List.length_pos_iff.2 hx; omega⟩
    obtain ⟨a, l, hal⟩ := List.exists_cons_of_ne_nil hx
    rw [hm]
    have hch : chunks n (m + 1) f.dels = f.dels.take n :: chunks n m (f.dels.drop n) := by
      rw [hal, chunks]
    rw [hch, zipBatches, zip_nil_left]
    have hl := take_getLast? hn h2
    refine delivers_cons ⟨.data, by simpa [items] using hd⟩ (.inr ⟨.del, (x, none), ?_, ?_, ?_⟩)
    · simp only [items, Option.getD_some, List.getLast?_map, hl, Option.map_some]
    · intro y hy
      simp only [other, items, List.mem_map] at hy
      obtain ⟨q, hq, rfl⟩ := hy
      exact h3 q hq
    · intro b hb
      obtain ⟨d, hd', rfl⟩ := List.mem_map.1 hb
      exact ⟨by simpa [items] using chunks_ne hn _ _ d hd', by simp [other, items]⟩

/-- The version an entry stands for. -/
def verOf (p : KT K × Option R) : Ver K R :=
  ⟨p.1.key, p.1.ts, match p.2 with | some r => .put r | none => .del⟩

/-- The entry of a version. -/
def itemOf (w : Ver K R) : KT K × Option R :=
  (⟨w.key, w.ts⟩, match w.op with | .put r => some r | .del => none)

@[simp] theorem verOf_itemOf (w : Ver K R) : verOf (itemOf w) = w := by
  obtain ⟨k, t, op⟩ := w
  cases op <;> rfl

@[simp] theorem itemOf_verOf (p : KT K × Option R) : itemOf (verOf p) = p := by
  obtain ⟨kt, o⟩ := p
  cases o <;> rfl

theorem inInputs_iff {n : Nat} (hn : 0 < n) (fs : List (File K R)) (w : Ver K R) :
    InInputs (fs.map (fileBatches n)) (itemOf w) ↔ FilesHold fs w := by
  obtain ⟨k, t, op⟩ := w
  constructor
  · rintro ⟨bs, hbs, kd, hp⟩
    obtain ⟨f, hf, rfl⟩ := List.mem_map.1 hbs
    refine ⟨f, hf, ?_⟩
    cases kd
    · rw [fileBatches_data hn, List.mem_map] at hp
      obtain ⟨q, hq, e⟩ := hp
      cases op with
      | put r =>
        simp only [itemOf, Prod.mk.injEq, Option.some.injEq] at e
        obtain ⟨e1, e2⟩ := e
        change (⟨k, t⟩, r) ∈ f.data
        rw [← e1, ← e2]; exact hq
      | del => simp [itemOf] at e
    · rw [fileBatches_del hn, List.mem_map] at hp
      obtain ⟨q, hq, e⟩ := hp
      cases op with
      | put r => simp [itemOf] at e
      | del =>
        simp only [itemOf, Prod.mk.injEq, and_true] at e
        change (⟨k, t⟩ : KT K) ∈ f.dels
        rw [← e]; exact hq
  · rintro ⟨f, hf, hw⟩
    refine ⟨_, List.mem_map_of_mem hf, ?_⟩
    cases op with
    | put r =>
      refine ⟨.data, ?_⟩
      rw [fileBatches_data hn]
      exact List.mem_map.2 ⟨_, hw, rfl⟩
    | del =>
      refine ⟨.del, ?_⟩
      rw [fileBatches_del hn]
      exact List.mem_map.2 ⟨_, hw, rfl⟩

theorem holds_fileOf (ws : List (KT K × Option R)) (w : Ver K R) : Holds (fileOf ws) w ↔ itemOf w ∈ ws := by
  obtain ⟨k, t, op⟩ := w
  cases op with
  | put r => exact mem_rowOf
  | del => exact mem_delOf

theorem outputs_hold {cfg : Cfg K R} {tables : List (OTable K R)} {parts : List (List (KT K × Option R))}
    (h : List.Forall₂ (TableRep cfg) tables parts) (w : Ver K R) :
    FilesHold (tables.map (·.file)) w ↔ itemOf w ∈ parts.flatten := by
  constructor
  · rintro ⟨f, hf, hw⟩
    obtain ⟨t, ht, rfl⟩ := List.mem_map.1 hf
    obtain ⟨ws, hws, hr⟩ := forall₂_mem_l h t ht
    rw [hr.file, holds_fileOf] at hw
    exact List.mem_flatten.2 ⟨ws, hws, hw⟩
  · intro hw
    obtain ⟨ws, hws, hw⟩ := List.mem_flatten.1 hw
    obtain ⟨t, ht, hr⟩ := forall₂_mem_r h ws hws
    exact ⟨t.file, List.mem_map_of_mem ht, by rw [hr.file, holds_fileOf]; exact hw⟩

theorem filesMean_iff {fs : List (File K R)} (hf : Functional (FilesHold fs)) (w : Ver K R) :
    FilesMean fs w ↔ FilesHold fs w := by
  have : ∀ f ∈ fs, ∀ w, FileVersions f w ↔ Holds f w := by
    intro f hm w
    refine fileVersions_iff (H := Holds f) ?_ (fun _ _ => Iff.rfl) (fun _ => Iff.rfl) w
    exact fun a b ha hb => hf a b ⟨f, hm, ha⟩ ⟨f, hm, hb⟩
  constructor
  · rintro ⟨f, hm, h⟩; exact ⟨f, hm, (this f hm w).1 h⟩
  · rintro ⟨f, hm, h⟩; exact ⟨f, hm, (this f hm w).2 h⟩

/-- What the outputs of a successful merge hold, if every file delivers what it has. -/
theorem merged_holds {cfg : Cfg K R} {H : Heap K} {next : Option Nat} {n : Nat} (hn : 0 < n)
    {fs : List (File K R)} {tables : List (OTable K R)} (hs : ∀ f ∈ fs, FileSorted f)
    (hfit : ∀ f ∈ fs, Fits n f)
    (h : execute cfg H next (fs.map (fileBatches n)) = .ok tables) :
    (∀ w, FilesHold (tables.map (·.file)) w → FilesHold fs w ∧
      ∀ u, FilesHold fs u → u.key = w.key → u.ts ≤ w.ts) ∧
    (∀ u, FilesHold fs u → ∃ w, FilesHold (tables.map (·.file)) w ∧ w.key = u.key) := by
  obtain ⟨L, hL, hres⟩ := execute_spec cfg H next (fs.map (fileBatches n))
    (by
      intro bs hbs
      obtain ⟨f, hf, rfl⟩ := List.mem_map.1 hbs
      exact fits_delivers hn (hfit f hf))
    (by
      intro bs hbs k
      obtain ⟨f, hf, rfl⟩ := List.mem_map.1 hbs
      exact fileBatches_sorted hn (hs f hf) k)
  rcases hres with ⟨_, he⟩ | ⟨_, tables', parts, he, hrep, hfl, _⟩ | ⟨e, he, _⟩
  · rw [he] at h; cases h
  · rw [he] at h
    cases h
    constructor
    · intro w hw
      rw [outputs_hold hrep, hfl] at hw
      obtain ⟨h1, h2⟩ := hL.newest _ hw
      refine ⟨(inInputs_iff hn fs w).1 h1, fun u hu hk => ?_⟩
      exact h2 (itemOf u) ((inInputs_iff hn fs u).2 hu) hk
    · intro u hu
      obtain ⟨w, hw, hk⟩ := hL.covers _ ((inInputs_iff hn fs u).2 hu)
      refine ⟨verOf w, ?_, hk⟩
      rw [outputs_hold hrep, hfl, itemOf_verOf]
      exact hw
  · rw [he] at h; cases h

theorem merged_holds_iff {cfg : Cfg K R} {H : Heap K} {next : Option Nat} {n : Nat} (hn : 0 < n)
    {fs : List (File K R)} {tables : List (OTable K R)} (hs : ∀ f ∈ fs, FileSorted f)
    (hfit : ∀ f ∈ fs, Fits n f) (hf : Functional (FilesHold fs))
    (h : execute cfg H next (fs.map (fileBatches n)) = .ok tables) (w : Ver K R) :
    FilesHold (tables.map (·.file)) w ↔
      FilesHold fs w ∧ ∀ u, FilesHold fs u → u.key = w.key → u.ts ≤ w.ts := by
  obtain ⟨h1, h2⟩ := merged_holds hn hs hfit h
  refine ⟨h1 w, ?_⟩
  rintro ⟨hw, hmax⟩
  obtain ⟨u, hu, hk⟩ := h2 w hw
  obtain ⟨hu1, hu2⟩ := h1 u hu
  have ht : u.ts = w.ts := Nat.le_antisymm (hmax u hu1 hk) (hu2 w hw hk.symm)
  have : u = w := by
    have := hf u w hu1 hw hk ht
    obtain ⟨a, b, c⟩ := u
    obtain ⟨a', b', c'⟩ := w
    simp_all
  rw [← this]; exact hu

theorem listPop_spec : ∀ (h : List (HEntry K)), h ≠ [] → ∃ e h', listPop h = some (e, h') ∧
    h.Perm (e :: h') ∧ ∀ x ∈ h', e.ge x
  | [], h => absurd rfl h
  | [e], _ => ⟨e, [], rfl, List.Perm.refl _, by simp⟩
  | e :: e' :: h, _ => by
    obtain ⟨m, r, h1, h2, h3⟩ := listPop_spec (e' :: h) (by simp)
    have htot : ∀ a b : HEntry K, ¬ a.ge b → b.ge a := by
      intro a b hab
      unfold HEntry.ge at hab ⊢
      rw [not_or, not_and_or] at hab
      obtain ⟨q1, q2⟩ := hab
      rcases lt_trichotomy a.kt b.kt with h | h | h
      · exact absurd h q1
      · right
        refine ⟨h.symm, ?_⟩
        rcases q2 with q2 | q2
        · exact absurd h q2
        · rw [not_or, not_and_or, not_not] at q2
          obtain ⟨q3, q4⟩ := q2
          rcases Nat.lt_trichotomy a.seq b.seq with g | g | g
          · exact .inl g
          · right
            refine ⟨g.symm, ?_⟩
            rcases q4 with q4 | q4
            · exact absurd g q4
            · rw [q4.1, q4.2]
              simp
          · exact absurd g q3
      · exact .inl h
    have htr : ∀ a b c : HEntry K, a.ge b → b.ge c → a.ge c := by
      intro a b c hab hbc
      unfold HEntry.ge at *
      rcases hab with hab | ⟨hab, hab'⟩ <;> rcases hbc with hbc | ⟨hbc, hbc'⟩
      · exact .inl (lt_trans hab hbc)
      · exact .inl (hbc ▸ hab)
      · exact .inl (hab ▸ hbc)
      · right
        refine ⟨hab.trans hbc, ?_⟩
        rcases hab' with hab' | ⟨hab', k1⟩ <;> rcases hbc' with hbc' | ⟨hbc', k2⟩
        · exact .inl (by omega)
        · exact .inl (by omega)
        · exact .inl (by omega)
        · refine .inr ⟨by omega, ?_⟩
          cases hb : b.kind <;> rw [hb] at k1 k2 <;> simp_all
    rw [listPop, h1]
    simp only
    by_cases hge : e.ge m
    · rw [if_pos hge]
      refine ⟨e, m :: r, rfl, (List.perm_cons e).2 h2, ?_⟩
      intro x hx
      rcases List.mem_cons.1 hx with rfl | hx
      · exact hge
      · exact htr e m x hge (h3 x hx)
    · rw [if_neg hge]
      refine ⟨m, e :: r, rfl, ?_, ?_⟩
      · exact ((List.perm_cons e).2 h2).trans (List.Perm.swap _ _ _)
      · intro x hx
        rcases List.mem_cons.1 hx with rfl | hx
        · exact htot _ _ hge
        · exact h3 x hx

/-- A heap that searches its largest element. -/
def listHeap (K : Type) [LinearOrder K] : Heap K := ⟨listPop, rfl, listPop_spec⟩

end Tonbo.Lemmas.Compact
