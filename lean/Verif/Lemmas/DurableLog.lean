import Verif.Model.Durable
import Verif.Lemmas.Replay

/-!
# The log as a list of labelled events
-/

set_option linter.unusedSectionVars false

namespace Tonbo.Lemmas.Durable
open Tonbo.Model Tonbo.Model.Wal Tonbo.Model.Durable Tonbo.Spec Tonbo.Spec.Wal
open Tonbo.Lemmas.Replay

variable {A K R : Type} [LinearOrder K]

/-! ## Bodies and transactions by position -/

theorem mem_body {id : BitVec 64} {pre : List (Event A)} {e : Event A} :
    e ∈ bodyOf id pre ↔ payloadOf id e = true ∧ ∃ l1 l2, pre = l1 ++ e :: l2 ∧ ∀ m ∈ l2, finishes id m = false := by
  induction pre using List.reverseRecOn with
  | nil => simp [bodyOf]
  | append_singleton pre x ih =>
    rw [body_snoc]
    constructor
    · intro h
      split at h
      · cases h
      · rename_i hx
        have hx : finishes id x = false := by simpa using hx
        rcases List.mem_append.1 h with h | h
        · obtain ⟨a, l1, l2, b, c⟩ := ih.1 h
          refine ⟨a, l1, l2 ++ [x], by rw [b]; simp, ?_⟩
          intro m hm
          rcases List.mem_append.1 hm with hm | hm
          · exact c m hm
          · rw [List.mem_singleton.1 hm]; exact hx
        · split at h
          · rename_i hp
            rw [List.mem_singleton.1 h]
            exact ⟨hp, pre, [], rfl, by simp⟩
          · cases h
    · rintro ⟨hp, l1, l2, he, hl2⟩
      rcases List.eq_nil_or_concat l2 with rfl | ⟨l3, y, rfl⟩
      · obtain ⟨h1, h2⟩ := List.append_inj' he rfl
        have h2 : x = e := by simpa using h2
        subst h2
        subst h1
        have hf : finishes id x = false := by cases x <;> simp_all [payloadOf, finishes]
        rw [hf]
        simp [hp]
      · have he : pre ++ [x] = (l1 ++ e :: l3) ++ [y] := by rw [he]; simp
        obtain ⟨h1, h2⟩ := List.append_inj' he rfl
        have h2 : x = y := by simpa using h2
        subst h2
        have hf : finishes id x = false := hl2 x (by simp)
        rw [hf]
        simp only [Bool.false_eq_true, if_false]
        exact List.mem_append_left _ (ih.2 ⟨hp, l1, l3, h1, fun m hm => hl2 m (by simp [hm])⟩)

theorem mem_committed {evs : List (Event A)} {p : BitVec 64 × List (Event A)} :
    p ∈ committedTxns evs ↔ ∃ pre id post, evs = pre ++ Event.commit id p.1 :: post ∧ p.2 = bodyOf id pre := by
  induction evs using List.reverseRecOn with
  | nil => simp [committedTxns]
  | append_singleton evs x ih =>
    rw [committed_snoc]
    constructor
    · intro h
      rcases List.mem_append.1 h with h | h
      · obtain ⟨pre, id, post, a, b⟩ := ih.1 h
        exact ⟨pre, id, post ++ [x], by rw [a]; simp, b⟩
      · cases x with
        | commit id ts =>
          rw [List.mem_singleton.1 h]
          exact ⟨evs, id, [], rfl, rfl⟩
        | _ => cases h
    · rintro ⟨pre, id, post, a, b⟩
      rcases List.eq_nil_or_concat post with rfl | ⟨post', y, rfl⟩
      · obtain ⟨h1, h2⟩ := List.append_inj' a rfl
        cases h2
        subst h1
        refine List.mem_append_right _ ?_
        simp only [List.mem_singleton]
        exact Prod.ext rfl b
      · have he : evs ++ [x] = (pre ++ Event.commit id p.1 :: post') ++ [y] := by rw [a]; simp
        obtain ⟨h1, h2⟩ := List.append_inj' he rfl
        exact List.mem_append_left _ (ih.2 ⟨pre, id, post', h1, b⟩)

theorem body_suffix {id : BitVec 64} {a b : List (Event A)} {e : Event A} (h : e ∈ bodyOf id b) :
    e ∈ bodyOf id (a ++ b) := by
  obtain ⟨hp, l1, l2, rfl, hl⟩ := mem_body.1 h
  exact mem_body.2 ⟨hp, a ++ l1, l2, by simp, hl⟩

/-! ## A condition on committed payloads -/

/-- Every payload of a committed transaction meets a condition. -/
def AllTxns (P : BitVec 64 → Event A → Prop) (evs : List (Event A)) : Prop :=
  ∀ p ∈ committedTxns evs, ∀ e ∈ p.2, P p.1 e

theorem allTxns_suffix {P : BitVec 64 → Event A → Prop} {a b : List (Event A)} (h : AllTxns P (a ++ b)) :
    AllTxns P b := by
  intro p hp e he
  obtain ⟨pre, id, post, h1, h2⟩ := mem_committed.1 hp
  rw [h2] at he
  exact h (p.1, bodyOf id (a ++ pre)) (mem_committed.2 ⟨a ++ pre, id, post, by rw [h1]; simp, rfl⟩) e (body_suffix he)

theorem allTxns_snoc {P : BitVec 64 → Event A → Prop} {evs : List (Event A)} {x : Event A} (h : AllTxns P evs)
    (hx : ∀ id ts, x = .commit id ts → ∀ e ∈ bodyOf id evs, P ts e) : AllTxns P (evs ++ [x]) := by
  intro p hp e he
  rw [committed_snoc] at hp
  rcases List.mem_append.1 hp with hp | hp
  · exact h p hp e he
  · cases x with
    | commit id ts =>
      rw [List.mem_singleton.1 hp] at he ⊢
      exact hx id ts rfl e he
    | _ => cases hp

theorem allTxns_mono {P Q : BitVec 64 → Event A → Prop} {evs : List (Event A)} (h : AllTxns P evs)
    (hpq : ∀ ts e, P ts e → Q ts e) : AllTxns Q evs := fun p hp e he => hpq _ _ (h p hp e he)

theorem mem_logBatches {ext : R → Option K} {sch : Sch A K R} {evs : List (Event A)} {w : Ver K R} :
    w ∈ logBatches ext sch evs ↔ ∃ p ∈ committedTxns evs, ∃ e ∈ p.2, w ∈ lastOnly (payloadWrites ext sch p.1 e) := by
  unfold logBatches
  simp only [List.mem_flatMap]

/-! ## Labels -/

/-- Segment number, frame number and event. -/
abbrev Ent (A : Type) := Nat × Nat × Event A

/-- All frames with their labels. -/
def entries (segs : List (LSeg A)) : List (Ent A) := segs.flatMap (fun g => g.frames.map (fun p => (g.seq, p.1, p.2)))

/-- The events. -/
def evs (E : List (Ent A)) : List (Event A) := E.map (·.2.2)

theorem evs_append (a b : List (Ent A)) : evs (a ++ b) = evs a ++ evs b := List.map_append

theorem entries_append (a b : List (LSeg A)) : entries (a ++ b) = entries a ++ entries b := List.flatMap_append

/-- A payload of transaction `id` at this place, not finished since. -/
def OpenAt (E : List (Ent A)) (id : BitVec 64) (e : Event A) (g n : Nat) : Prop :=
  payloadOf id e = true ∧ ∃ pre mid, E = pre ++ (g, n, e) :: mid ∧ ∀ m ∈ mid, finishes id m.2.2 = false

/-- The write `w` is part of a payload at this place whose transaction is committed later. -/
def LoggedAt (ext : R → Option K) (sch : Sch A K R) (E : List (Ent A)) (w : Ver K R) (g n : Nat) : Prop :=
  ∃ id ts e pre mid post g' n', E = pre ++ (g, n, e) :: (mid ++ (g', n', Event.commit id ts) :: post) ∧
    payloadOf id e = true ∧ (∀ m ∈ mid, finishes id m.2.2 = false) ∧ w ∈ lastOnly (payloadWrites ext sch ts e)

theorem logged_append {ext : R → Option K} {sch : Sch A K R} {E : List (Ent A)} {w : Ver K R} {g n : Nat}
    (h : LoggedAt ext sch E w g n) (X : List (Ent A)) : LoggedAt ext sch (E ++ X) w g n := by
  obtain ⟨id, ts, e, pre, mid, post, g', n', h1, h2⟩ := h
  exact ⟨id, ts, e, pre, mid, post ++ X, g', n', by rw [h1]; simp, h2⟩

theorem open_append {E : List (Ent A)} {id : BitVec 64} {e : Event A} {g n : Nat} (h : OpenAt E id e g n)
    (X : List (Ent A)) (hX : ∀ m ∈ X, finishes id m.2.2 = false) : OpenAt (E ++ X) id e g n := by
  obtain ⟨hp, pre, mid, h1, h2⟩ := h
  refine ⟨hp, pre, mid ++ X, by rw [h1]; simp, ?_⟩
  intro m hm
  rcases List.mem_append.1 hm with hm | hm
  · exact h2 m hm
  · exact hX m hm

theorem open_new (E : List (Ent A)) {id : BitVec 64} {e : Event A} (g n : Nat) (hp : payloadOf id e = true) :
    OpenAt (E ++ [(g, n, e)]) id e g n := ⟨hp, E, [], rfl, by simp⟩

theorem logged_of_open {ext : R → Option K} {sch : Sch A K R} {E : List (Ent A)} {id ts : BitVec 64} {e : Event A}
    {g n : Nat} (h : OpenAt E id e g n) (g' n' : Nat) {w : Ver K R} (hw : w ∈ lastOnly (payloadWrites ext sch ts e)) :
    LoggedAt ext sch (E ++ [(g', n', Event.commit id ts)]) w g n := by
  obtain ⟨hp, pre, mid, h1, h2⟩ := h
  exact ⟨id, ts, e, pre, mid, [], g', n', by rw [h1]; simp, hp, h2, hw⟩

theorem logged_mem {ext : R → Option K} {sch : Sch A K R} {E : List (Ent A)} {w : Ver K R} {g n : Nat}
    (h : LoggedAt ext sch E w g n) : ∃ e, (g, n, e) ∈ E := by
  obtain ⟨id, ts, e, pre, mid, post, g', n', h1, _⟩ := h
  exact ⟨e, by rw [h1]; simp⟩

theorem open_mem {E : List (Ent A)} {id : BitVec 64} {e : Event A} {g n : Nat} (h : OpenAt E id e g n) :
    (g, n, e) ∈ E := by
  obtain ⟨_, pre, mid, h1, _⟩ := h
  rw [h1]; simp

theorem logBatches_of_logged {ext : R → Option K} {sch : Sch A K R} {E : List (Ent A)} {w : Ver K R} {g n : Nat}
    (h : LoggedAt ext sch E w g n) : w ∈ logBatches ext sch (evs E) := by
  obtain ⟨id, ts, e, pre, mid, post, g', n', h1, h2, h3, h4⟩ := h
  refine mem_logBatches.2 ⟨(ts, bodyOf id (evs (pre ++ (g, n, e) :: mid))), ?_, e, ?_, h4⟩
  · refine mem_committed.2 ⟨evs (pre ++ (g, n, e) :: mid), id, evs post, ?_, rfl⟩
    rw [h1]; simp [evs]
  · refine mem_body.2 ⟨h2, evs pre, evs mid, by simp [evs], ?_⟩
    intro m hm
    obtain ⟨x, hx, rfl⟩ := List.mem_map.1 hm
    exact h3 x hx

/-! ## Dropping old segments -/

/-- The entries of segments from `fl` on. -/
def since (fl : Nat) (E : List (Ent A)) : List (Ent A) := E.filter (fun x => decide (fl ≤ x.1))

theorem since_suffix {fl : Nat} : ∀ {E : List (Ent A)}, E.Pairwise (fun a b => a.1 ≤ b.1) → ∃ a, E = a ++ since fl E
  | [], _ => ⟨[], rfl⟩
  | x :: E, h => by
    obtain ⟨h1, h2⟩ := List.pairwise_cons.1 h
    by_cases hx : fl ≤ x.1
    · refine ⟨[], ?_⟩
      unfold since
      rw [List.nil_append, List.filter_eq_self.2]
      intro y hy
      rcases List.mem_cons.1 hy with rfl | hy
      · simpa using hx
      · have := h1 y hy
        simp only [decide_eq_true_eq]
        omega
    · obtain ⟨a, ha⟩ := since_suffix (fl := fl) h2
      refine ⟨x :: a, ?_⟩
      have : since fl (x :: E) = since fl E := by
        unfold since
        rw [List.filter_cons_of_neg (by simpa using hx)]
      rw [this, List.cons_append, ← ha]

theorem since_tail {fl g n : Nat} {e : Event A} {pre tail : List (Ent A)}
    (h : (pre ++ (g, n, e) :: tail).Pairwise (fun a b => a.1 ≤ b.1)) (hg : fl ≤ g) :
    since fl (pre ++ (g, n, e) :: tail) = since fl pre ++ (g, n, e) :: tail := by
  unfold since
  rw [List.filter_append]
  congr 1
  rw [List.filter_eq_self]
  intro y hy
  have h2 := (List.pairwise_append.1 h).2.1
  rcases List.mem_cons.1 hy with rfl | hy
  · simpa using hg
  · have := (List.pairwise_cons.1 h2).1 y hy
    simp only [decide_eq_true_eq] at this ⊢
    omega

theorem logged_since {ext : R → Option K} {sch : Sch A K R} {E : List (Ent A)} {w : Ver K R} {g n fl : Nat}
    (h : LoggedAt ext sch E w g n) (hs : E.Pairwise (fun a b => a.1 ≤ b.1)) (hg : fl ≤ g) :
    LoggedAt ext sch (since fl E) w g n := by
  obtain ⟨id, ts, e, pre, mid, post, g', n', h1, h2⟩ := h
  subst h1
  exact ⟨id, ts, e, since fl pre, mid, post, g', n', since_tail hs hg, h2⟩

theorem open_since {E : List (Ent A)} {id : BitVec 64} {e : Event A} {g n fl : Nat} (h : OpenAt E id e g n)
    (hs : E.Pairwise (fun a b => a.1 ≤ b.1)) (hg : fl ≤ g) : OpenAt (since fl E) id e g n := by
  obtain ⟨hp, pre, mid, h1, h2⟩ := h
  subst h1
  exact ⟨hp, since fl pre, mid, since_tail hs hg, h2⟩

theorem entries_prune (fl : Nat) (segs : List (LSeg A)) :
    entries (segs.filter (fun g => decide (fl ≤ g.seq))) = since fl (entries segs) := by
  induction segs with
  | nil => rfl
  | cons g segs ih =>
    have e1 : entries (g :: segs) = g.frames.map (fun p => (g.seq, p.1, p.2)) ++ entries segs := rfl
    rw [e1]
    unfold since at ih ⊢
    rw [List.filter_append, ← ih]
    by_cases hg : fl ≤ g.seq
    · rw [List.filter_cons_of_pos (by simpa using hg)]
      have e2 : ∀ l : List (LSeg A), entries (g :: l) = g.frames.map (fun p => (g.seq, p.1, p.2)) ++ entries l := fun _ => rfl
      rw [e2]
      congr 1
      rw [List.filter_eq_self.2]
      intro x hx
      obtain ⟨p, _, rfl⟩ := List.mem_map.1 hx
      simpa using hg
    · rw [List.filter_cons_of_neg (by simpa using hg)]
      have : (g.frames.map (fun p => (g.seq, p.1, p.2))).filter (fun x => decide (fl ≤ x.1)) = [] := by
        rw [List.filter_eq_nil_iff]
        intro x hx
        obtain ⟨p, _, rfl⟩ := List.mem_map.1 hx
        simpa using hg
      rw [this, List.nil_append]

theorem replayed_eq (floor : Option Manifest.WalRef) (segs : List (LSeg A)) :
    replayed floor segs = evs ((entries segs).filter (fun x => visited floor x.1 x.2.1)) := by
  induction segs with
  | nil => rfl
  | cons g segs ih =>
    have e1 : entries (g :: segs) = g.frames.map (fun p => (g.seq, p.1, p.2)) ++ entries segs := rfl
    have e2 : replayed floor (g :: segs) =
        (g.frames.filter (fun p => visited floor g.seq p.1)).map (·.2) ++ replayed floor segs := rfl
    rw [e1, e2, List.filter_append, evs_append, ih]
    congr 1
    rw [List.filter_map]
    unfold evs
    rw [List.map_map]
    rfl

theorem entries_push {segs : List (LSeg A)} {g : LSeg A} (h : segs.getLast? = some g) (p : Nat × Event A) :
    entries (pushLast segs p) = entries segs ++ [(g.seq, p.1, p.2)] := by
  unfold pushLast
  rw [h]
  simp only
  have hs : segs = segs.dropLast ++ [g] := by
    obtain ⟨ys, rfl⟩ := List.getLast?_eq_some_iff.1 h
    simp
  conv_rhs => rw [hs]
  rw [entries_append, entries_append, List.append_assoc]
  congr 1
  simp [entries]

end Tonbo.Lemmas.Durable
