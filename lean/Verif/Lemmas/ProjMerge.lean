import Verif.Model.Package

/-! Helper lemmas for C61: merging and packaging look at a row only through the predicate and the
projection. -/

namespace Tonbo.Lemmas.ProjMerge
open Tonbo.Model Tonbo.Model.Mem Tonbo.Model.Merge

variable {K R S : Type}

/-- An entry with its row changed. -/
def mapE (f : R → S) : Entry K R → Entry K S
  | .row kt r => .row kt (f r)
  | .tomb kt => .tomb kt

/-- Poll results with their rows changed. -/
abbrev mapP (f : R → S) (s : List (Option (Entry K R))) : List (Option (Entry K S)) := s.map (Option.map (mapE f))

/-- Streams with their rows changed. -/
abbrev mapS (f : R → S) (ss : List (Prio × List (Option (Entry K R)))) : List (Prio × List (Option (Entry K S))) :=
  ss.map (fun s => (s.1, mapP f s.2))

@[simp] theorem mapE_kt (f : R → S) (e : Entry K R) : (mapE f e).kt = e.kt := by cases e <;> rfl
@[simp] theorem mapE_isTomb (f : R → S) (e : Entry K R) : (mapE f e).isTomb = e.isTomb := by cases e <;> rfl

section Merge
variable [LinearOrder K]

@[simp] theorem mapE_hkey (f : R → S) (i : Nat) (p : Prio) (e : Entry K R) : hkey i p (mapE f e) = hkey i p e := by
  unfold hkey; rw [mapE_kt]

/-- A heap with its rows changed. -/
abbrev mapH (f : R → S) (h : List (HE K R)) : List (HE K S) := h.map (fun x => (x.1, x.2.1, mapE f x.2.2))

theorem insert_map {α β γ : Type} [LinearOrder α] (g : β → γ) (k : α) (v : β) (l : List (α × β)) :
    SMap.insert k (g v) (l.map (fun x => (x.1, g x.2))) = (SMap.insert k v l).map (fun x => (x.1, g x.2)) := by
  induction l with
  | nil => rfl
  | cons q l ih =>
    obtain ⟨a, b⟩ := q
    simp only [List.map_cons, SMap.insert]
    split
    · rfl
    · split
      · rfl
      · rw [ih]; rfl

theorem pushNext_map (f : R → S) (i : Nat) (p : Prio) (nx : Option (Entry K R)) (h : List (HE K R)) :
    pushNext i p (nx.map (mapE f)) (mapH f h) = mapH f (pushNext i p nx h) := by
  cases nx with
  | none => rfl
  | some e =>
    simp only [pushNext, Option.map_some, mapE_hkey]
    exact insert_map (fun x : Nat × Entry K R => (x.1, mapE f x.2)) _ (i, e) h

/-- A merge state with its rows changed. -/
def mapSt (f : R → S) (st : St K R) : St K S :=
  { streams := mapS f st.streams, heap := mapH f st.heap, buf := st.buf.map (mapE f), limit := st.limit }

theorem nextReady_map (f : R → S) (s : List (Option (Entry K R))) :
    nextReady (mapP f s) = ((nextReady s).1.map (mapE f), mapP f (nextReady s).2) := by
  induction s with
  | nil => rfl
  | cons o s ih =>
    cases o with
    | none => simpa [nextReady, mapP] using ih
    | some e => rfl

theorem fromVecLoop_map (f : R → S) : ∀ (ss : List (Prio × List (Option (Entry K R)))) (i : Nat) (h : List (HE K R)),
    fromVecLoop i (mapS f ss) (mapH f h) = (mapS f (fromVecLoop i ss h).1, mapH f (fromVecLoop i ss h).2) := by
  intro ss
  induction ss with
  | nil => intro i h; rfl
  | cons q ss ih =>
    intro i h
    obtain ⟨p, s⟩ := q
    simp only [mapS, List.map_cons, fromVecLoop] at ih ⊢
    rw [nextReady_map]
    simp only
    rw [pushNext_map, ih]

theorem fromVec_map (f : R → S) (ss : List (Prio × List (Option (Entry K R)))) (limit : Option Nat) :
    fromVec (mapS f ss) limit = mapSt f (fromVec ss limit) := by
  unfold fromVec mapSt
  have := fromVecLoop_map f ss 0 []
  simp only [mapH, List.map_nil] at this
  simp only [this]
  rfl

theorem pollStream_map (f : R → S) (s : List (Option (Entry K R))) :
    pollStream (mapP f s) = ((match (pollStream s).1 with
      | .pending => .pending
      | .ready o => .ready (o.map (mapE f))), mapP f (pollStream s).2) := by
  cases s with
  | nil => rfl
  | cons o s => cases o <;> rfl

/-- A poll result with its row changed. -/
def mapPoll (f : R → S) : Poll (Option (Entry K R)) → Poll (Option (Entry K S))
  | .pending => .pending
  | .ready o => .ready (o.map (mapE f))

theorem drain_map (f : R → S) (st : St K R) : drain (mapSt f st) = (mapPoll f (drain st).1, mapSt f (drain st).2) := by
  obtain ⟨ss, h, b, l⟩ := st
  cases b with
  | none => rfl
  | some e =>
    simp only [drain, mapSt, Option.map_some, mapE_isTomb]
    split <;> rfl

theorem pollLoop_map (f : R → S) : ∀ (n : Nat) (st : St K R),
    pollLoop n (mapSt f st) = (pollLoop n st).map (fun q => (mapPoll f q.1, mapSt f q.2)) := by
  intro n
  induction n with
  | zero => intro st; rfl
  | succ n ih =>
    intro st
    obtain ⟨ss, h, b, l⟩ := st
    cases h with
    | nil =>
      have := drain_map f (⟨ss, [], b, l⟩ : St K R)
      simp only [pollLoop, mapSt, mapH, List.map_nil] at this ⊢
      rw [Option.map_some, this]
    | cons x rest =>
      obtain ⟨hk, i, e⟩ := x
      simp only [pollLoop, mapSt, mapH, List.map_cons, mapS, List.getElem?_map]
      cases hs : ss[i]? with
      | none => rfl
      | some q =>
        obtain ⟨p, s⟩ := q
        simp only [Option.map_some]
        rw [pollStream_map]
        rcases hp : pollStream s with ⟨o, s'⟩
        cases o with
        | pending => simp [mapPoll, mapSt, mapS, List.map_set]
        | ready nx =>
          simp only
          have hpush := pushNext_map f i p nx rest
          have hset : (ss.map (fun s => (s.1, mapP f s.2))).set i (p, mapP f s') = mapS f (ss.set i (p, s')) := by
            rw [mapS, List.map_set]
          rw [hset, hpush]
          cases b with
          | none => exact ih ⟨ss.set i (p, s'), pushNext i p nx rest, some e, l⟩
          | some b =>
            simp only [Option.map_some, mapE_kt, mapE_isTomb]
            split
            · exact ih ⟨ss.set i (p, s'), pushNext i p nx rest, some b, l⟩
            · split
              · exact ih ⟨ss.set i (p, s'), pushNext i p nx rest, some e, l⟩
              · simp [mapPoll, mapSt]

theorem size_map (f : R → S) (st : St K R) : (mapSt f st).size = st.size := by
  simp [St.size, mapSt, mapH, mapS, mapP, Function.comp_def]

theorem poll_map (f : R → S) (st : St K R) :
    Merge.poll (mapSt f st) = (Merge.poll st).map (fun q => (mapPoll f q.1, mapSt f q.2)) := by
  unfold Merge.poll
  rw [size_map, pollLoop_map]
  by_cases h : st.limit = some 0
  · rw [if_pos h, if_pos (by exact h)]; rfl
  · rw [if_neg h, if_neg (by exact h)]

theorem trace_map (f : R → S) : ∀ (n : Nat) (st : St K R), trace n (mapSt f st) = (trace n st).map (mapP f) := by
  intro n
  induction n with
  | zero => intro st; rfl
  | succ n ih =>
    intro st
    simp only [trace]
    rw [poll_map]
    rcases Merge.poll st with _ | ⟨o, st'⟩
    · rfl
    · cases o with
      | pending => simp only [Option.map_some, mapPoll]; rw [ih, Option.map_map, Option.map_map]; rfl
      | ready o =>
        cases o with
        | none => rfl
        | some e => simp only [Option.map_some, mapPoll]; rw [ih, Option.map_map, Option.map_map]; rfl

theorem mergeAll_map (f : R → S) (ss : List (Prio × List (Option (Entry K R)))) (limit : Option Nat) :
    mergeAll (mapS f ss) limit = (mergeAll ss limit).map (mapP f) := by
  unfold mergeAll
  simp only [fromVec_map]
  rw [St.polls, size_map, trace_map]
  rfl

end Merge

section Package
open Tonbo.Model.Package
variable {Q E : Type}

theorem fill_map (f : R → S) (ev : Option (S → Except E Bool)) (g : S → Q) (eff : Nat) :
    ∀ (up : List (Option (Entry K R))) (buf : List Q),
    fill ev g eff (mapP f up) buf =
      ((fill (ev.map (fun v r => v (f r))) (fun r => g (f r)) eff up buf).1,
        (fill (ev.map (fun v r => v (f r))) (fun r => g (f r)) eff up buf).2.1,
        mapP f (fill (ev.map (fun v r => v (f r))) (fun r => g (f r)) eff up buf).2.2) := by
  intro up
  induction up with
  | nil => intro buf; simp only [mapP, List.map_nil, fill]; split <;> rfl
  | cons o up ih =>
    intro buf
    cases o with
    | none => simp only [mapP, List.map_cons, Option.map_none, fill]; split <;> rfl
    | some e =>
      cases e with
      | tomb kt =>
        simp only [mapP, List.map_cons, Option.map_some, mapE, fill]
        split
        · exact ih buf
        · rfl
      | row kt r =>
        simp only [mapP, List.map_cons, Option.map_some, mapE, fill]
        split
        · cases ev with
          | none => exact ih _
          | some v =>
            simp only [Option.map_some]
            cases v (f r) with
            | error e => rfl
            | ok b =>
              cases b
              · exact ih _
              · exact ih _
        · rfl

theorem poll_map' (f : R → S) (ev : Option (S → Except E Bool)) (g : S → Q) (bs : Nat) (lim : Option Nat)
    (up : List (Option (Entry K R))) (buf : List Q) (total : Nat) :
    Package.poll ev g bs lim ⟨mapP f up, buf, total⟩ =
      ((Package.poll (ev.map (fun v r => v (f r))) (fun r => g (f r)) bs lim ⟨up, buf, total⟩).1,
        let st := (Package.poll (ev.map (fun v r => v (f r))) (fun r => g (f r)) bs lim ⟨up, buf, total⟩).2
        ⟨mapP f st.up, st.buf, st.total⟩) := by
  unfold Package.poll
  simp only
  split
  · rfl
  · rw [fill_map]
    generalize fill (ev.map (fun v r => v (f r))) (fun r => g (f r)) (effective bs lim total) up buf = w
    obtain ⟨o, b, u⟩ := w
    cases o <;> simp only <;> first | rfl | (split <;> rfl)

theorem drive_map (f : R → S) (ev : Option (S → Except E Bool)) (g : S → Q) (bs : Nat) (lim : Option Nat) :
    ∀ (n : Nat) (up : List (Option (Entry K R))) (buf : List Q) (total : Nat),
    drive ev g bs lim n ⟨mapP f up, buf, total⟩ =
      drive (ev.map (fun v r => v (f r))) (fun r => g (f r)) bs lim n ⟨up, buf, total⟩ := by
  intro n
  induction n with
  | zero => intros; rfl
  | succ n ih =>
    intro up buf total
    simp only [drive]
    rw [poll_map']
    generalize Package.poll (ev.map (fun v r => v (f r))) (fun r => g (f r)) bs lim ⟨up, buf, total⟩ = w
    obtain ⟨o, st⟩ := w
    cases o <;> simp only <;> first | rfl | exact ih _ _ _ | (rw [ih])

/-- Changing the rows first, or the predicate and the projection. -/
theorem scanStreams_map [LinearOrder K] (f : R → S) (ev : Option (S → Except E Bool)) (g : S → Q) (bs : Nat)
    (lim : Option Nat) (ss : List (Prio × List (Option (Entry K R)))) :
    scanStreams ev g bs lim (mapS f ss) = scanStreams (ev.map (fun v r => v (f r))) (fun r => g (f r)) bs lim ss := by
  unfold scanStreams
  by_cases h : ss = []
  · subst h; rfl
  · rw [if_neg h, if_neg (by simpa [mapS] using h)]
    simp only [Option.isSome_map, mergeAll_map]
    generalize mergeAll ss (if ev.isSome = true then none else lim) = w
    cases w with
    | none => rfl
    | some up =>
      simp only [Option.map_some, package, mapP, List.length_map]
      exact drive_map f ev g bs _ _ up [] 0

/-- What a predicate and a projection do to rows that do not occur does not matter. -/
theorem scanStreams_congr [LinearOrder K] (P : R → Prop) (ev ev' : Option (R → Except E Bool)) (g g' : R → Q) (bs : Nat)
    (lim : Option Nat) (ss : List (Prio × List (Option (Entry K R))))
    (hss : ∀ s ∈ ss, ∀ kt r, some (Entry.row kt r) ∈ s.2 → P r) (hnone : ev.isSome = ev'.isSome)
    (hev : ∀ v v', ev = some v → ev' = some v' → ∀ r, P r → v r = v' r) (hg : ∀ r, P r → g r = g' r) :
    scanStreams ev g bs lim ss = scanStreams ev' g' bs lim ss := by
  have hlift : ∃ ss' : List (Prio × List (Option (Entry K {r // P r}))), ss = mapS Subtype.val ss' := by
    clear hev hnone
    induction ss with
    | nil => exact ⟨[], rfl⟩
    | cons s ss ih =>
      obtain ⟨t, ht⟩ := ih (fun s hs => hss s (List.mem_cons_of_mem _ hs))
      have : ∀ l : List (Option (Entry K R)), (∀ kt r, some (Entry.row kt r) ∈ l → P r) →
          ∃ l' : List (Option (Entry K {r // P r})), l = mapP Subtype.val l' := by
        intro l
        induction l with
        | nil => intro _; exact ⟨[], rfl⟩
        | cons o l ih =>
          intro hl
          obtain ⟨l', hl'⟩ := ih (fun kt r h => hl kt r (List.mem_cons_of_mem _ h))
          cases o with
          | none => exact ⟨none :: l', by rw [hl']; rfl⟩
          | some e =>
            cases e with
            | tomb kt => exact ⟨some (.tomb kt) :: l', by rw [hl']; rfl⟩
            | row kt r =>
              have hp := hl kt r List.mem_cons_self
              exact ⟨some (.row kt ⟨r, hp⟩) :: l', congrArg (some (.row kt r) :: ·) hl'⟩
      obtain ⟨l', hl'⟩ := this s.2 (hss s List.mem_cons_self)
      exact ⟨(s.1, l') :: t, by rw [ht]; simp only [mapS, List.map_cons]; rw [← hl']⟩
  obtain ⟨ss', rfl⟩ := hlift
  rw [scanStreams_map, scanStreams_map]
  have h1 : (fun r : {r // P r} => g r.1) = fun r => g' r.1 := funext fun r => hg r.1 r.2
  have h2 : ev.map (fun v (r : {r // P r}) => v r.1) = ev'.map (fun v r => v r.1) := by
    cases ev with
    | none => cases ev' with
      | none => rfl
      | some v' => cases hnone
    | some v => cases ev' with
      | none => cases hnone
      | some v' =>
        simp only [Option.map_some, Option.some.injEq]
        exact funext fun r => hev v v' rfl rfl r.1 r.2
  rw [h1, h2]

/-! ## Changing the result -/

theorem fill_out {Q' : Type} (h : Q → Q') (ev : Option (R → Except E Bool)) (g : R → Q) (eff : Nat) :
    ∀ (up : List (Option (Entry K R))) (buf : List Q),
    fill ev (fun r => h (g r)) eff up (buf.map h) =
      ((fill ev g eff up buf).1, (fill ev g eff up buf).2.1.map h, (fill ev g eff up buf).2.2) := by
  intro up
  induction up with
  | nil => intro buf; simp only [fill, List.length_map]; split <;> rfl
  | cons o up ih =>
    intro buf
    have ih' : ∀ r, fill ev (fun r => h (g r)) eff up (buf.map h ++ [h (g r)]) =
      ((fill ev g eff up (buf ++ [g r])).1, (fill ev g eff up (buf ++ [g r])).2.1.map h, (fill ev g eff up (buf ++ [g r])).2.2) := by
      intro r
      have := ih (buf ++ [g r])
      rwa [List.map_append] at this
    cases o with
    | none => simp only [fill, List.length_map]; split <;> rfl
    | some e =>
      cases e with
      | tomb kt =>
        simp only [fill, List.length_map]
        split
        · exact ih buf
        · rfl
      | row kt r =>
        simp only [fill, List.length_map]
        split
        · cases ev with
          | none => exact ih' r
          | some v =>
            simp only
            cases v r with
            | error e => rfl
            | ok b =>
              cases b
              · exact ih _
              · exact ih' r
        · rfl

theorem drive_out {Q' : Type} (h : Q → Q') (ev : Option (R → Except E Bool)) (g : R → Q) (bs : Nat) (lim : Option Nat) :
    ∀ (n : Nat) (up : List (Option (Entry K R))) (buf : List Q) (total : Nat),
    drive ev (fun r => h (g r)) bs lim n ⟨up, buf.map h, total⟩ =
      (drive ev g bs lim n ⟨up, buf, total⟩).map (fun q => (q.1.map (List.map h), q.2)) := by
  intro n
  induction n with
  | zero => intros; rfl
  | succ n ih =>
    intro up buf total
    simp only [drive, Package.poll]
    by_cases hr : reached lim total = true
    · rw [if_pos hr, if_pos hr]; rfl
    · rw [if_neg hr, if_neg hr, fill_out]
      generalize fill ev g (effective bs lim total) up buf = w
      obtain ⟨o, b, u⟩ := w
      have key : ∀ t, (drive ev (fun r => h (g r)) bs lim n ⟨u, [], t⟩).map (fun q => (b.map h :: q.1, q.2)) =
          ((drive ev g bs lim n ⟨u, [], t⟩).map (fun q => (b :: q.1, q.2))).map (fun q => (q.1.map (List.map h), q.2)) := by
        intro t
        rw [show ([] : List Q') = ([] : List Q).map h from rfl, ih, Option.map_map, Option.map_map]
        rfl
      have pend : ∀ t, drive ev (fun r => h (g r)) bs lim n ⟨u, [], t⟩ =
          (drive ev g bs lim n ⟨u, [], t⟩).map (fun q => (q.1.map (List.map h), q.2)) := by
        intro t
        rw [show ([] : List Q') = ([] : List Q).map h from rfl, ih]
      by_cases hb : b = []
      · subst hb
        cases o <;> simp only [List.map_nil, if_true] <;> first | rfl | exact pend total
      · have hb' : b.map h ≠ [] := by simpa using hb
        cases o <;> simp only [if_neg hb, if_neg hb', List.length_map] <;> first | rfl | exact key _

/-- Changing the rows that come out. -/
theorem scanStreams_out [LinearOrder K] {Q' : Type} (h : Q → Q') (ev : Option (R → Except E Bool)) (g : R → Q) (bs : Nat)
    (lim : Option Nat) (ss : List (Prio × List (Option (Entry K R)))) :
    scanStreams ev (fun r => h (g r)) bs lim ss =
      (scanStreams ev g bs lim ss).map (fun q => (q.1.map (List.map h), q.2)) := by
  unfold scanStreams
  split
  · rfl
  · simp only
    cases mergeAll ss (if ev.isSome = true then none else lim) with
    | none => rfl
    | some up => exact drive_out h ev g bs _ _ up [] 0

end Package
end Tonbo.Lemmas.ProjMerge
