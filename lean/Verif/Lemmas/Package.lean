import Verif.Model.Package
import Verif.Lemmas.Merge

set_option linter.unusedSectionVars false

namespace Tonbo.Lemmas.Package
open Tonbo.Model Tonbo.Model.Mem Tonbo.Model.Package Tonbo.Lemmas.Merge

variable {K R Q E : Type}

/-- Rows of the upstream that pass, up to the first evaluation error. -/
def matched (eval : Option (R → Except E Bool)) (proj : R → Q) :
    List (Option (Entry K R)) → List Q × Option E
  | [] => ([], none)
  | none :: up => matched eval proj up
  | some (.tomb _) :: up => matched eval proj up
  | some (.row _ r) :: up =>
    match eval with
    | none => (proj r :: (matched eval proj up).1, (matched eval proj up).2)
    | some ev =>
      match ev r with
      | .error e => ([], some e)
      | .ok false => matched eval proj up
      | .ok true => (proj r :: (matched eval proj up).1, (matched eval proj up).2)

theorem fill_spec (eval : Option (R → Except E Bool)) (proj : R → Q) (eff : Nat) :
    ∀ (up : List (Option (Entry K R))) (buf : List Q), buf.length ≤ eff →
    ∃ s buf' up', fill eval proj eff up buf = (s, buf', up') ∧ buf'.length ≤ eff ∧
      up'.length ≤ up.length ∧ (buf'.length ≠ buf.length → up'.length < up.length) ∧
      buf.length ≤ buf'.length ∧
      (match s with
       | .full => buf'.length = eff ∧
          (buf ++ (matched eval proj up).1, (matched eval proj up).2) =
            (buf' ++ (matched eval proj up').1, (matched eval proj up').2)
       | .done => up' = [] ∧ buf' = buf ++ (matched eval proj up).1 ∧
          (matched eval proj up).2 = none
       | .pending => up'.length < up.length ∧
          (buf ++ (matched eval proj up).1, (matched eval proj up).2) =
            (buf' ++ (matched eval proj up').1, (matched eval proj up').2)
       | .err e => (buf ++ (matched eval proj up).1, (matched eval proj up).2) =
            (buf', some e) ∧ buf'.length < eff)
  | [], buf, hb => by
    simp only [fill]
    split
    · exact ⟨_, _, _, rfl, hb, by simp, by simp, by simp, rfl, by simp [matched], rfl⟩
    · exact ⟨_, _, _, rfl, hb, by simp, by simp, by simp, by omega, rfl⟩
  | none :: up, buf, hb => by
    simp only [fill]
    split
    · exact ⟨_, _, _, rfl, hb, by simp, by simp, by simp, by simp, by simp [matched]⟩
    · exact ⟨_, _, _, rfl, hb, by simp, by simp, by simp, by omega, rfl⟩
  | some (.tomb kt) :: up, buf, hb => by
    simp only [fill]
    split
    · obtain ⟨s, b, u, h1, h2, h3, h4, h5, h6⟩ := fill_spec eval proj eff up buf hb
      refine ⟨s, b, u, h1, h2, by simp; omega, by simp; omega, h5, ?_⟩
      cases s with
      | full => exact h6
      | done => exact h6
      | pending => exact ⟨by simp; omega, h6.2⟩
      | err e => exact h6
    · exact ⟨_, _, _, rfl, hb, by simp, by simp, by simp, by omega, rfl⟩
  | some (.row kt r) :: up, buf, hb => by
    have keepCase : buf.length < eff → (matched eval proj (some (.row kt r) :: up)) =
        (proj r :: (matched eval proj up).1, (matched eval proj up).2) →
        ∃ s buf' up', fill eval proj eff up (buf ++ [proj r]) = (s, buf', up') ∧
          buf'.length ≤ eff ∧ up'.length ≤ (some (Entry.row kt r) :: up).length ∧
          (buf'.length ≠ buf.length → up'.length < (some (Entry.row kt r) :: up).length) ∧
          buf.length ≤ buf'.length ∧
          (match s with
           | .full => buf'.length = eff ∧
              (buf ++ (matched eval proj (some (.row kt r) :: up)).1,
                (matched eval proj (some (.row kt r) :: up)).2) =
                (buf' ++ (matched eval proj up').1, (matched eval proj up').2)
           | .done => up' = [] ∧ buf' = buf ++ (matched eval proj (some (.row kt r) :: up)).1 ∧
              (matched eval proj (some (.row kt r) :: up)).2 = none
           | .pending => up'.length < (some (Entry.row kt r) :: up).length ∧
              (buf ++ (matched eval proj (some (.row kt r) :: up)).1,
                (matched eval proj (some (.row kt r) :: up)).2) =
                (buf' ++ (matched eval proj up').1, (matched eval proj up').2)
           | .err e => (buf ++ (matched eval proj (some (.row kt r) :: up)).1,
                (matched eval proj (some (.row kt r) :: up)).2) = (buf', some e) ∧
                buf'.length < eff) := by
      intro hlt hm
      obtain ⟨s, b, u, h1, h2, h3, h4, h5, h6⟩ := fill_spec eval proj eff up (buf ++ [proj r])
        (by simp; omega)
      rw [hm]
      refine ⟨s, b, u, h1, h2, by simp; omega, by simp; omega, by simp at h5; omega, ?_⟩
      cases s with
      | full => simpa using h6
      | done => simpa using h6
      | pending => exact ⟨by simp; omega, by simpa using h6.2⟩
      | err e => simpa using h6
    simp only [fill]
    by_cases hlt : buf.length < eff
    · rw [if_pos hlt]
      cases heval : eval with
      | none =>
        subst heval
        exact keepCase hlt (by simp [matched])
      | some ev =>
        subst heval
        simp only
        cases hev : ev r with
        | error e =>
          refine ⟨_, _, _, rfl, hb, by simp, by simp, by simp, ?_⟩
          simp [matched, hev, hlt]
        | ok b =>
          cases b with
          | true => exact keepCase hlt (by simp [matched, hev])
          | false =>
            obtain ⟨s, b, u, h1, h2, h3, h4, h5, h6⟩ := fill_spec (some ev) proj eff up buf hb
            have hm : matched (some ev) proj (some (.row kt r) :: up) = matched (some ev) proj up := by
              simp [matched, hev]
            rw [hm]
            refine ⟨s, b, u, h1, h2, by simp; omega, by simp; omega, h5, ?_⟩
            cases s with
            | full => exact h6
            | done => exact h6
            | pending => exact ⟨by simp; omega, h6.2⟩
            | err e => exact h6
    · rw [if_neg hlt]
      exact ⟨_, _, _, rfl, hb, by simp, by simp, by simp, by omega, rfl⟩

/-- How many more rows may be emitted. -/
def left (limit : Option Nat) (total : Nat) : Option Nat := limit.map (· - total)

theorem takeOpt_append {limit : Option Nat} {total : Nat} {b l : List Q}
    (h : ∀ n, limit = some n → total + b.length ≤ n) :
    takeOpt (left limit total) (b ++ l) = b ++ takeOpt (left limit (total + b.length)) l := by
  cases limit with
  | none => rfl
  | some n =>
    have := h n rfl
    simp only [left, Option.map_some, takeOpt]
    rw [List.take_append, List.take_of_length_le (by omega)]
    congr 2
    omega

theorem effective_le {batchSize : Nat} {limit : Option Nat} {total : Nat} :
    effective batchSize limit total ≤ batchSize := by
  unfold effective; split <;> omega

theorem drive_spec (eval : Option (R → Except E Bool)) (proj : R → Q) (batchSize : Nat)
    (hbs : 0 < batchSize) (limit : Option Nat) :
    ∀ (n : Nat) (up : List (Option (Entry K R))) (total : Nat), up.length < n →
    ∃ bs er, drive eval proj batchSize limit n { up := up, buf := [], total := total } =
        some (bs, er) ∧
      (∀ b ∈ bs, b ≠ [] ∧ b.length ≤ batchSize) ∧
      (match er with
       | none => bs.flatten = takeOpt (left limit total) (matched eval proj up).1 ∧
          ((matched eval proj up).2 = none ∨
            ∃ l, limit = some l ∧ l - total ≤ (matched eval proj up).1.length)
       | some e => (matched eval proj up).2 = some e ∧ bs.flatten <+: (matched eval proj up).1 ∧
          ∀ l, limit = some l → (matched eval proj up).1.length < l - total)
  | 0, _, _, hn => absurd hn (Nat.not_lt_zero _)
  | n + 1, up, total, hn => by
    simp only [drive, poll]
    by_cases hr : reached limit total = true
    · simp only [if_pos hr]
      refine ⟨[], none, rfl, by simp, ?_⟩
      cases limit with
      | none => simp [reached] at hr
      | some l =>
        simp only [reached, decide_eq_true_eq] at hr
        exact ⟨by simp [left, takeOpt, Nat.sub_eq_zero_of_le hr],
          .inr ⟨l, rfl, by omega⟩⟩
    · rw [if_neg hr]
      have heff : 0 < effective batchSize limit total := by
        unfold effective
        cases limit with
        | none => exact hbs
        | some l => simp [reached] at hr; simp; omega
      have hlim : ∀ m, limit = some m → total + effective batchSize limit total ≤ m := by
        rintro m rfl
        simp [reached] at hr
        simp only [effective]; omega
      obtain ⟨s, b, u, h1, h2, h3, h4, h5, h6⟩ :=
        fill_spec eval proj (effective batchSize limit total) up [] (by simp)
      rw [h1]
      have batchCase : b ≠ [] → (matched eval proj up = (b ++ (matched eval proj u).1,
          (matched eval proj u).2)) →
          ∃ bs er, (drive eval proj batchSize limit n
              { up := u, buf := [], total := total + b.length }).map
                (fun p => (b :: p.1, p.2)) = some (bs, er) ∧
            (∀ b ∈ bs, b ≠ [] ∧ b.length ≤ batchSize) ∧
            (match er with
             | none => bs.flatten = takeOpt (left limit total) (matched eval proj up).1 ∧
                ((matched eval proj up).2 = none ∨
                  ∃ l, limit = some l ∧ l - total ≤ (matched eval proj up).1.length)
             | some e => (matched eval proj up).2 = some e ∧
                bs.flatten <+: (matched eval proj up).1 ∧
                ∀ l, limit = some l → (matched eval proj up).1.length < l - total) := by
        intro hne hm
        have hul : u.length < n := by
          have := h4 (by simpa using hne)
          omega
        obtain ⟨bs, er, q1, q2, q3⟩ := drive_spec eval proj batchSize hbs limit n u
          (total + b.length) hul
        refine ⟨b :: bs, er, by rw [q1]; rfl, ?_, ?_⟩
        · intro c hc
          rcases List.mem_cons.1 hc with rfl | hc
          · exact ⟨hne, Nat.le_trans h2 effective_le⟩
          · exact q2 c hc
        · rw [hm]
          have hlb : ∀ m, limit = some m → total + b.length ≤ m := by
            intro m hmm; have := hlim m hmm; omega
          cases er with
          | none =>
            refine ⟨?_, ?_⟩
            · rw [takeOpt_append hlb, List.flatten_cons, q3.1]
            · rcases q3.2 with h | ⟨l, hl, hle⟩
              · exact .inl h
              · refine .inr ⟨l, hl, ?_⟩
                have := hlb l hl
                simp; omega
          | some e =>
            refine ⟨q3.1, ?_, ?_⟩
            · rw [List.flatten_cons]
              exact List.prefix_append_right_inj b |>.2 q3.2.1
            · intro l hl
              have := q3.2.2 l hl
              have := hlb l hl
              simp; omega
      cases s with
      | err e =>
        simp only
        refine ⟨[], some e, rfl, by simp, ?_⟩
        have := Prod.mk.inj h6.1
        simp only [List.nil_append] at this
        refine ⟨this.2, by simp, ?_⟩
        intro l hl
        have h7 := hlim l hl
        have h8 := h6.2
        rw [this.1]; omega
      | done =>
        simp only
        obtain ⟨rfl, h7, h8⟩ := h6
        simp only [List.nil_append] at h7
        by_cases hb0 : b = []
        · simp only [if_pos hb0]
          refine ⟨[], none, rfl, by simp, ?_, .inl h8⟩
          rw [← h7, hb0]
          cases limit <;> simp [left, takeOpt]
        · simp only [if_neg hb0]
          exact batchCase hb0 (by
            rw [h7]
            simp only [matched, List.append_nil]
            rw [← h8])
      | pending =>
        simp only
        simp only [List.nil_append] at h6
        by_cases hb0 : b = []
        · simp only [if_pos hb0]
          obtain ⟨bs, er, q1, q2, q3⟩ := drive_spec eval proj batchSize hbs limit n u total (by
            have := h6.1; omega)
          refine ⟨bs, er, q1, q2, ?_⟩
          have h7 := h6.2
          rw [hb0, List.nil_append] at h7
          have h8 : matched eval proj up = matched eval proj u := h7
          rw [h8]; exact q3
        · simp only [if_neg hb0]
          exact batchCase hb0 h6.2
      | full =>
        simp only
        simp only [List.nil_append] at h6
        have hb0 : b ≠ [] := by
          intro hb0
          rw [hb0] at h6
          simp at h6
          omega
        simp only [if_neg hb0]
        exact batchCase hb0 h6.2

end Tonbo.Lemmas.Package
