import Verif.Model.Memtable
import Verif.Spec.Mvcc

/-! # The common shape of the two memtable scans -/

namespace Tonbo.Lemmas.Scan
open Tonbo.Model Tonbo.Spec

variable {K : Type} [LinearOrder K] {β : Type}

/-- Keep, per key, the first entry whose timestamp is at most `rts`. -/
def scanG (rts : Nat) : List (KT K × β) → Option K → Bool → List (KT K × β)
  | [], _, _ => []
  | (kt, v) :: rest, cur, em =>
    if cur = some kt.key ∧ em = true then scanG rts rest cur em
    else if rts < kt.ts then
      scanG rts rest (some kt.key) (if cur = some kt.key then em else false)
    else (kt, v) :: scanG rts rest (some kt.key) true

theorem mem_of_mem_scanG {rts : Nat} {l : List (KT K × β)} {cur em p}
    (h : p ∈ scanG rts l cur em) : p ∈ l := by
  fun_induction scanG rts l cur em with grind

theorem scanG_mem {rts : Nat} {l : List (KT K × β)} (hs : SMap.Sorted l) {cur em}
    (hc : ∀ k, cur = some k → ∀ q ∈ l, k ≤ q.1.key) (p : KT K × β) :
    p ∈ scanG rts l cur em ↔
      p ∈ l ∧ p.1.ts ≤ rts ∧ ¬ (cur = some p.1.key ∧ em = true) ∧
        ∀ q ∈ l, q.1.key = p.1.key → q.1.ts ≤ rts → q.1.ts ≤ p.1.ts := by
  fun_induction scanG rts l cur em with
  | case1 => simp
  | case2 kt v rest cur em hce ih =>
    have hs' := List.pairwise_cons.1 hs
    rw [ih hs'.2 (fun k hk q hq => hc k hk q (List.mem_cons_of_mem _ hq))]
    constructor
    · rintro ⟨h1, h2, h3, h4⟩
      refine ⟨List.mem_cons_of_mem _ h1, h2, h3, ?_⟩
      intro q hq hk ht
      rcases List.mem_cons.1 hq with rfl | hq
      · exact absurd ⟨by rw [hce.1]; simp at hk; rw [hk], hce.2⟩ h3
      · exact h4 q hq hk ht
    · rintro ⟨h1, h2, h3, h4⟩
      rcases List.mem_cons.1 h1 with rfl | h1
      · exact absurd hce h3
      · exact ⟨h1, h2, h3, fun q hq => h4 q (List.mem_cons_of_mem _ hq)⟩
  | case3 kt v rest cur em hce hts ih =>
    have hs' := List.pairwise_cons.1 hs
    have hk' : ∀ k, some kt.key = some k → ∀ q ∈ rest, k ≤ q.1.key := by
      intro k hk q hq
      cases hk
      rcases hs'.1 q hq with h | h
      · exact le_of_lt h
      · exact le_of_eq h.1
    rw [ih hs'.2 hk']
    constructor
    · rintro ⟨h1, h2, h3, h4⟩
      refine ⟨List.mem_cons_of_mem _ h1, h2, ?_, ?_⟩
      · rintro ⟨a, b⟩
        apply h3
        have hkk := hc _ a (kt, v) List.mem_cons_self
        have := hk' _ rfl _ h1
        have e : kt.key = p.1.key := le_antisymm this hkk
        refine ⟨by rw [e], ?_⟩
        rw [e, if_pos a]; exact b
      · intro q hq hk ht
        rcases List.mem_cons.1 hq with rfl | hq
        · simp at ht; omega
        · exact h4 q hq hk ht
    · rintro ⟨h1, h2, h3, h4⟩
      rcases List.mem_cons.1 h1 with rfl | h1
      · simp at h2; omega
      · refine ⟨h1, h2, ?_, fun q hq => h4 q (List.mem_cons_of_mem _ hq)⟩
        rintro ⟨a, b⟩
        have a' : kt.key = p.1.key := by simpa using a
        split at b
        · exact h3 ⟨by rw [← a']; assumption, b⟩
        · exact absurd b (by simp)
  | case4 kt v rest cur em hce hts ih =>
    have hs' := List.pairwise_cons.1 hs
    have hk' : ∀ k, some kt.key = some k → ∀ q ∈ rest, k ≤ q.1.key := by
      intro k hk q hq
      cases hk
      rcases hs'.1 q hq with h | h
      · exact le_of_lt h
      · exact le_of_eq h.1
    rw [List.mem_cons, ih hs'.2 hk']
    constructor
    · rintro (rfl | ⟨h1, h2, h3, h4⟩)
      · refine ⟨List.mem_cons_self, by simp; omega, hce, ?_⟩
        intro q hq hk ht
        rcases List.mem_cons.1 hq with rfl | hq
        · exact Nat.le_refl _
        · rcases hs'.1 q hq with h | h
          · exact absurd hk.symm (ne_of_lt h)
          · exact Nat.le_of_lt h.2
      · have hne : kt.key ≠ p.1.key := fun e => h3 ⟨by rw [e], rfl⟩
        refine ⟨List.mem_cons_of_mem _ h1, h2, ?_, ?_⟩
        · rintro ⟨a, b⟩
          have hkk := hc _ a (kt, v) List.mem_cons_self
          exact hne (le_antisymm (hk' _ rfl _ h1) hkk)
        · intro q hq hk ht
          rcases List.mem_cons.1 hq with rfl | hq
          · exact absurd hk hne
          · exact h4 q hq hk ht
    · rintro ⟨h1, h2, h3, h4⟩
      rcases List.mem_cons.1 h1 with rfl | h1
      · exact .inl rfl
      · refine .inr ⟨h1, h2, ?_, fun q hq => h4 q (List.mem_cons_of_mem _ hq)⟩
        rintro ⟨a, _⟩
        have e : kt.key = p.1.key := by simpa using a
        have h5 := h4 (kt, v) List.mem_cons_self e (by simp; omega)
        rcases hs'.1 p h1 with h | h
        · exact absurd e (ne_of_lt h)
        · simp at h5; have := h.2; simp at this; omega

theorem scanG_sorted {rts : Nat} {l : List (KT K × β)} (hs : SMap.Sorted l) {cur em}
    (hc : ∀ k, cur = some k → ∀ q ∈ l, k ≤ q.1.key) :
    (scanG rts l cur em).Pairwise (fun a b => a.1.key < b.1.key) := by
  have aux : ∀ (kt : KT K) (v : β) (rest : List (KT K × β)), SMap.Sorted ((kt, v) :: rest) →
      ∀ k, some kt.key = some k → ∀ q ∈ rest, k ≤ q.1.key := by
    intro kt v rest hs k hk q hq
    cases hk
    rcases (List.pairwise_cons.1 hs).1 q hq with h | h
    · exact le_of_lt h
    · exact le_of_eq h.1
  fun_induction scanG rts l cur em with
  | case1 => simp
  | case2 kt v rest cur em hce ih =>
    exact ih (List.pairwise_cons.1 hs).2 (fun k hk q hq => hc k hk q (List.mem_cons_of_mem _ hq))
  | case3 kt v rest cur em hce hts ih =>
    exact ih (List.pairwise_cons.1 hs).2 (aux _ _ _ hs)
  | case4 kt v rest cur em hce hts ih =>
    have hs' := List.pairwise_cons.1 hs
    rw [List.pairwise_cons]
    refine ⟨?_, ih hs'.2 (aux _ _ _ hs)⟩
    intro q hq
    rw [scanG_mem hs'.2 (aux _ _ _ hs)] at hq
    have hle := aux _ _ _ hs _ rfl q hq.1
    exact lt_of_le_of_ne hle (fun e => hq.2.2.1 ⟨by rw [e], rfl⟩)

/-- Timestamps fit into 64 bits: the range conversion selects exactly the keys in range. -/
theorem inBounds_lift {lo hi : Mem.Bnd K} {kt : KT K} (h : kt.ts ≤ Mem.tsMax) :
    Mem.inBounds (Mem.lowerKT lo) (Mem.upperKT hi) kt = Mem.inBounds lo hi kt.key := by
  have h1 : Mem.aboveLo (Mem.lowerKT lo) kt = Mem.aboveLo lo kt.key := by
    cases lo <;> simp only [Mem.aboveLo, Mem.lowerKT, KT.lt_def, KT.le_def, decide_eq_decide]
    · rename_i a
      constructor
      · rintro (g | g)
        · exact le_of_lt g
        · exact le_of_eq g.1
      · intro g
        rcases lt_or_eq_of_le g with g | g
        · exact .inl g
        · exact .inr ⟨g, h⟩
    · rename_i a
      constructor
      · rintro (g | g)
        · exact g
        · omega
      · exact .inl
  have h2 : Mem.belowHi (Mem.upperKT hi) kt = Mem.belowHi hi kt.key := by
    cases hi <;> simp only [Mem.belowHi, Mem.upperKT, KT.lt_def, KT.le_def, decide_eq_decide]
    · rename_i a
      constructor
      · rintro (g | g)
        · exact le_of_lt g
        · exact le_of_eq g.1
      · intro g
        rcases lt_or_eq_of_le g with g | g
        · exact .inl g
        · exact .inr ⟨g, Nat.zero_le _⟩
    · rename_i a
      constructor
      · rintro (g | g)
        · exact g
        · omega
      · exact .inl
  unfold Mem.inBounds
  rw [h1, h2]

end Tonbo.Lemmas.Scan
