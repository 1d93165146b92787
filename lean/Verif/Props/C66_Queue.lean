import Mathlib.Data.List.Sort
import Verif.Lemmas.WalQueue
import Verif.Lemmas.WalRetain

/-!
# C66: calls of the log are answered, and closing it loses nothing

Writers hand their requests to the writer task of the log and wait. A history is any sequence of such calls, of turns of
the task, which takes as many commands at once as it likes, of its timer, of bytes that move on their own, and of
storage calls that fail.
-/

namespace Tonbo.Props.C66
open Tonbo.Model
open Tonbo.Model.WalW hiding Op run step
open Tonbo.Model.WalQ Tonbo.Spec.WalQ Tonbo.Lemmas.WalQ Tonbo.Lemmas.WalW

variable {F : Type}

/-- **C66.** Every call is answered once or still waits, never both; what is answered fits what was asked; and nobody
waits when the task has ended, whether in order or by an error. -/
theorem every_call_is_answered_once (cfg : Cfg) (size : F → Nat) (os : List (Op F)) :
    let q := run cfg size Q.new os
    (q.answers.map Prod.fst ++ q.queue.map Prod.fst).Perm (List.range (asked os).length) ∧
      (∀ i m, (i, m) ∈ q.queue → (asked os)[i]? = some m) ∧
      (∀ i a b, (i, .written a b) ∈ q.answers → ∃ c, (asked os)[i]? = some (.cmd c)) ∧
      (∀ i, (i, .done) ∈ q.answers → (asked os)[i]? = some .rotate ∨ (asked os)[i]? = some .snapshot) ∧
      (q.over.isSome → q.queue = []) := by
  intro q
  obtain ⟨h, hc⟩ := inv_start cfg size os
  refine ⟨by rw [← hc]; exact h.perm, fun i m hp => h.waiting _ hp, ?_, ?_, h.ended⟩
  · intro i a b hp
    obtain ⟨m, h1, h2⟩ := h.kinds _ hp (fun h => by cases h)
    obtain ⟨c, rfl⟩ := h2.2.1 ⟨a, b, rfl⟩
    exact ⟨c, h1⟩
  · intro i hp
    obtain ⟨m, h1, h2⟩ := h.kinds _ hp (fun h => by cases h)
    have := h2.2.2 rfl
    cases m with
    | cmd c => exact absurd rfl (this c)
    | rotate => exact .inl h1
    | snapshot => exact .inr h1

/-- **C66.** Requests are served in the order of the calls, however the task groups them. -/
theorem served_in_order (cfg : Cfg) (size : F → Nat) (os : List (Op F)) :
    let q := run cfg size Q.new os
    ((q.answers.filter (fun p => decide (p.2 ≠ .refused))).map Prod.fst ++ q.queue.map Prod.fst).Pairwise (· < ·) :=
  (inv_start cfg size os).1.sorted

/-- **C66.** Without a retention limit the log holds, while no storage call has failed, exactly the frames of the calls
that were told so, in that order and numbered from one, and the numbers in an answer are those of its frames. After a
failure it holds those, and behind them some of the frames of the calls that were told of the failure. -/
theorem the_log_holds_what_was_promised (cfg : Cfg) (hr : cfg.retention = none) (size : F → Nat) (os : List (Op F))
    (he : Encoded (asked os)) :
    let q := run cfg size Q.new os
    (q.over ≠ some false → written q.w = numbered 1 (promised (asked os) q.answers)) ∧
      (q.over = some false → ∃ more, more <+: inDoubt (asked os) q.answers ∧
        written q.w = numbered 1 (promised (asked os) q.answers ++ more)) ∧
      (∀ pre i a b post, q.answers = pre ++ (i, .written a b) :: post →
        ∃ m, (asked os)[i]? = some m ∧ a = 1 + (promised (asked os) pre).length ∧ b + 1 = a + (framesOf m).length) := by
  intro q
  have h := (inv_start cfg size os).1
  obtain ⟨h1, h2⟩ := h.log hr he
  refine ⟨fun ho => (h.good hr he ho).toHeld.written, ?_, h1⟩
  intro ho
  rcases h2 with ⟨h2, _⟩ | ⟨_, _, more, h3, h4⟩
  · exact absurd ho h2
  · exact ⟨more, h3, by simpa using h4.written⟩

theorem run_append {cfg : Cfg} {size : F → Nat} (a b : List (Op F)) (q : Q F) :
    run cfg size q (a ++ b) = run cfg size (run cfg size q a) b := by
  induction a generalizing q with
  | nil => rfl
  | cons o a ih => exact ih _

/-- What an orderly end leaves of the log. -/
theorem closing {cfg : Cfg} (hr : cfg.retention = none) (size : F → Nat) (pre post : List (Op F)) (o : Op F)
    (ho : o = .close ∨ o = .shutdown) (hopen : StaysOpen pre) (hn : NoFaults (pre ++ o :: post))
    (he : Encoded (asked (pre ++ o :: post))) (ht : (asked pre).length < turns post) :
    let q := run cfg size Q.new (pre ++ o :: post)
    q.over = some true ∧ Split (asked pre).length q ∧ Inv cfg (asked (pre ++ o :: post)) q ∧
      q.calls = (asked (pre ++ o :: post)).length ∧
      ∀ P : Seg F → Prop, (∀ s : W F, P (finishSeg cfg s).active) → (∀ g, P g → P g.flush) → (∀ g, P g → P g.fsync) →
        Safe P q := by
  intro q
  -- while it is open
  have h1 : ∀ (os : List (Op F)) (q : Q F) (done : List (Msg F)) (ask : List (Msg F)), Encoded ask → StaysOpen os → NoFaults os →
      done ++ asked os <+: ask → q.calls = done.length → Inv cfg ask q → q.closed = false → q.over = none →
      (∀ p ∈ q.answers, p.2 ≠ .refused) →
      Inv cfg ask (run cfg size q os) ∧ (run cfg size q os).calls = (done ++ asked os).length ∧
        (run cfg size q os).closed = false ∧
        (run cfg size q os).over = none ∧ ∀ p ∈ (run cfg size q os).answers, p.2 ≠ .refused := by
    intro os
    induction os with
    | nil => intro q done ask _ _ _ _ hc hi h2 h3 h4; exact ⟨hi, by simp [run, asked, hc], h2, h3, h4⟩
    | cons o os ih =>
      intro q done ask he hop hnf hp hc hi h2 h3 h4
      obtain ⟨n1, n2⟩ := noFaults_cons hnf
      obtain ⟨s1, s2⟩ := open_step hr size he hi h2 h3 h4 o n1
      have hcl : (step cfg size q o).closed = false := by
        rw [step_closed, h2]
        cases o with
        | close => exact absurd List.mem_cons_self hop.1
        | shutdown => exact absurd List.mem_cons_self hop.2
        | _ => rfl
      have e : asked (o :: os) = asked [o] ++ asked os := asked_append [o] os
      rw [e, ← List.append_assoc] at hp ⊢
      refine ih _ (done ++ asked [o]) ask he ⟨fun h => hop.1 (List.mem_cons_of_mem _ h), fun h => hop.2 (List.mem_cons_of_mem _ h)⟩ n2
        hp ?_ (inv_step o hi ?_) hcl s1 s2
      · rw [step_calls, hc, List.length_append]
      · rintro m rfl
        obtain ⟨t, rfl⟩ := hp
        rw [hc]
        simp [asked]
  -- after it was closed
  have h2 : ∀ (os : List (Op F)) (q : Q F) (done : List (Msg F)) (ask : List (Msg F)) (n : Nat), Encoded ask → NoFaults os →
      ask = done ++ asked os → q.calls = done.length → Inv cfg ask q → q.closed = true → q.over ≠ some false → n ≤ q.calls → Split n q →
      Inv cfg ask (run cfg size q os) ∧ (run cfg size q os).calls = ask.length ∧ Split n (run cfg size q os) ∧
        (q.over = some true ∨ q.queue.length < turns os → (run cfg size q os).over = some true) := by
    intro os
    induction os with
    | nil =>
      intro q done ask n _ _ hp hc hi _ _ _ hs
      refine ⟨hi, by rw [run, hp, hc]; simp [asked], hs, ?_⟩
      rintro (h | h)
      · exact h
      · simp [turns] at h
    | cons o os ih =>
      intro q done ask n he hnf hp hc hi hcl hov hle hs
      obtain ⟨n1, n2⟩ := noFaults_cons hnf
      obtain ⟨s1, s2, _, s4⟩ := step_nofault hr size he hi hov o n1
      have e : asked (o :: os) = asked [o] ++ asked os := asked_append [o] os
      rw [e, ← List.append_assoc] at hp
      have hcl' : (step cfg size q o).closed = true := by rw [step_closed, hcl]; rfl
      obtain ⟨i1, i2, i3, i4⟩ := ih (step cfg size q o) (done ++ asked [o]) ask n he n2 hp
        (by rw [step_calls, hc, List.length_append]) (inv_step o hi (by
          rintro m rfl
          rw [hp, hc]
          simp [asked])) hcl' s1 (by rw [step_calls]; omega) (split_step hs hcl hle o)
      refine ⟨i1, i2, i3, fun h => i4 ?_⟩
      rcases h with h | h
      · exact .inl (s2 h)
      · rcases s4 hcl with h' | h'
        · exact .inl h'
        · right
          rw [turns_cons] at h
          omega
  have hnf : NoFaults pre ∧ NoFaults post := by
    have : ∀ os : List (Op F), NoFaults (os ++ o :: post) → NoFaults os ∧ NoFaults post := by
      intro os
      induction os with
      | nil => intro h; exact ⟨trivial, (noFaults_cons h).2⟩
      | cons x os ih =>
        intro h
        obtain ⟨a, b⟩ := noFaults_cons h
        obtain ⟨c, d⟩ := ih b
        refine ⟨?_, d⟩
        cases x <;> first | exact ⟨a.1, c⟩ | exact c
    exact this pre hn
  have hao : asked [o] = [] := by rcases ho with rfl | rfl <;> rfl
  have hask : asked (pre ++ o :: post) = asked pre ++ asked post := by
    have e : asked (o :: post) = asked [o] ++ asked post := asked_append [o] post
    rw [asked_append, e, hao, List.nil_append]
  obtain ⟨a1, a2, a3, a4, a5⟩ := h1 pre Q.new [] (asked (pre ++ o :: post)) he hopen hnf.1
    (by rw [hask]; exact List.prefix_append _ _) rfl (inv_new _ _) rfl rfl (fun p hp => by cases hp)
  have a2' : (run cfg size Q.new pre).calls = (asked pre).length := by simpa using a2
  have hlt : ∀ i, i ∈ (run cfg size Q.new pre).answers.map Prod.fst ++ (run cfg size Q.new pre).queue.map Prod.fst →
      i < (asked pre).length := by
    intro i hi
    rw [← a2']
    exact List.mem_range.1 (a1.perm.mem_iff.1 hi)
  have hq0 : (run cfg size Q.new pre).queue.length ≤ (asked pre).length := by
    have := a1.perm.length_eq
    simp only [List.length_append, List.length_map, List.length_range] at this
    omega
  have hstep : (step cfg size (run cfg size Q.new pre) o).queue = (run cfg size Q.new pre).queue ∧
      (step cfg size (run cfg size Q.new pre) o).closed = true ∧
      (step cfg size (run cfg size Q.new pre) o).over = none ∧
      (step cfg size (run cfg size Q.new pre) o).calls = (asked pre).length ∧
      (step cfg size (run cfg size Q.new pre) o).answers = (run cfg size Q.new pre).answers := by
    rcases ho with rfl | rfl
    · exact ⟨rfl, rfl, a4, a2', rfl⟩
    · exact ⟨rfl, rfl, a4, a2', rfl⟩
  obtain ⟨c1, c2, c3, c4, c5⟩ := hstep
  obtain ⟨b1, b2, b3, b4⟩ := h2 post (step cfg size (run cfg size Q.new pre) o) (asked pre) (asked (pre ++ o :: post)) (asked pre).length
    he hnf.2 hask c4 (inv_step o a1 (by rintro m rfl; rcases ho with h | h <;> cases h)) c2 (by rw [c3]; intro h; cases h) (by rw [c4])
    ⟨by rw [c5]; intro p hp hr; exact absurd hr (a5 p hp),
     by rw [c5]; intro p hp _; exact hlt _ (List.mem_append_left _ (List.mem_map.2 ⟨p, hp, rfl⟩)),
     by rw [c1]; intro p hp; exact hlt _ (List.mem_append_right _ (List.mem_map.2 ⟨p, hp, rfl⟩))⟩
  have hrun : q = run cfg size (step cfg size (run cfg size Q.new pre) o) post := by
    change run cfg size Q.new (pre ++ o :: post) = _
    rw [run_append]
    rfl
  rw [hrun]
  refine ⟨b4 (.inr (by rw [c1]; omega)), b3, b1, b2, ?_⟩
  intro P hP hf hy
  have hsafe : ∀ (os : List (Op F)) (q : Q F), Safe P q → Safe P (run cfg size q os) := by
    intro os
    induction os with
    | nil => intro q h; exact h
    | cons o os ih => intro q h; exact ih _ (safe_step hr hP hf hy size h o)
  rw [← hrun]
  exact hsafe _ _ ⟨(fun c hc => by cases hc), (fun h => by cases h)⟩

theorem promised_accepted (ask : List (Msg F)) (l : List (Nat × Ans)) :
    promised ask (l.filter (fun p => decide (p.2 ≠ .refused))) = promised ask l := by
  induction l with
  | nil => rfl
  | cons p l ih =>
    obtain ⟨i, a⟩ := p
    have e : promised ask ((i, a) :: l) = promised ask [(i, a)] ++ promised ask l := promised_append ask [(i, a)] l
    rw [List.filter_cons, e]
    split_ifs with h
    · have e' : promised ask ((i, a) :: l.filter (fun p => decide (p.2 ≠ .refused))) =
          promised ask [(i, a)] ++ promised ask (l.filter (fun p => decide (p.2 ≠ .refused))) := promised_append ask [(i, a)] _
      rw [e', ih]
    · have ha : a = .refused := by simpa using h
      subst ha
      rw [ih]
      rfl

theorem range_flatMap {G : Type} (f : Msg F → List G) (l : List (Msg F)) :
    (List.range l.length).flatMap (fun i => (l[i]?.map f).getD []) = l.flatMap f := by
  induction l with
  | nil => rfl
  | cons m l ih =>
    rw [List.length_cons, List.range_succ_eq_map, List.flatMap_cons, List.flatMap_map, List.flatMap_cons, ← ih]
    simp

/-- **C66 (partial).** When the log is closed, by `shutdown` or because the last handle is dropped, and no storage call fails,
the task comes to an end as soon as it has had one turn more than there were calls, whatever else happens meanwhile.
Every call made before has been carried out and told so, every later one is refused, and the log holds the frames of
all commands made before, in order: on the disk, and so across a loss of power, unless syncing is disabled, in which
case the operating system has them. Missing: a retention limit, which deletes old segments (`closing_with_a_limit`). -/
theorem closing_loses_nothing_partial (cfg : Cfg) (hr : cfg.retention = none) (size : F → Nat) (pre post : List (Op F)) (o : Op F)
    (ho : o = .close ∨ o = .shutdown) (hopen : StaysOpen pre) (hn : NoFaults (pre ++ o :: post))
    (he : Encoded (asked (pre ++ o :: post))) (ht : (asked pre).length < turns post) :
    let q := run cfg size Q.new (pre ++ o :: post)
    q.over = some true ∧
      (∀ i c, (asked pre)[i]? = some (.cmd c) → ∃ a b, (i, .written a b) ∈ q.answers) ∧
      (∀ i m, (asked pre)[i]? = some m → (∀ c, m ≠ .cmd c) → (i, .done) ∈ q.answers) ∧
      (∀ i, (asked pre).length ≤ i → i < (asked (pre ++ o :: post)).length → (i, .refused) ∈ q.answers) ∧
      (cfg.sync ≠ .disabled → afterPowerLoss q.w = numbered 1 ((asked pre).flatMap framesOf)) ∧
      afterKill q.w = numbered 1 ((asked pre).flatMap framesOf) ∧
      written q.w = numbered 1 ((asked pre).flatMap framesOf) := by
  intro q
  obtain ⟨h1, h2, h3, h4, h5⟩ := closing hr size pre post o ho hopen hn he ht
  have hq : q.queue = [] := h3.ended (by rw [h1]; rfl)
  have hov : q.over ≠ some false := by rw [h1]; intro h; cases h
  have hclean := h3.clean hov
  have hpre : asked pre <+: asked (pre ++ o :: post) := by rw [asked_append]; exact List.prefix_append _ _
  have hget : ∀ i, i < (asked pre).length → (asked (pre ++ o :: post))[i]? = (asked pre)[i]? := by
    intro i hi
    obtain ⟨t, ht⟩ := hpre
    rw [← ht, List.getElem?_append_left hi]
  have hex : ∀ i, i < (asked (pre ++ o :: post)).length → ∃ a, (i, a) ∈ q.answers := by
    intro i hi
    have : i ∈ q.answers.map Prod.fst ++ q.queue.map Prod.fst :=
      h3.perm.mem_iff.2 (List.mem_range.2 (by rw [h4]; exact hi))
    rw [hq] at this
    simp only [List.map_nil, List.append_nil] at this
    obtain ⟨p, hp, rfl⟩ := List.mem_map.1 this
    exact ⟨p.2, hp⟩
  have hall : ∀ i, i < (asked pre).length → ∃ a m, (i, a) ∈ q.answers ∧ (asked pre)[i]? = some m ∧ Fits m a := by
    intro i hi
    obtain ⟨a, ha⟩ := hex i (lt_of_lt_of_le hi hpre.length_le)
    have hnr : a ≠ .refused := by
      rintro rfl
      exact absurd (h2.refused _ ha rfl) (by simpa using hi)
    obtain ⟨m, hm, hf⟩ := h3.kinds _ ha hnr
    exact ⟨a, m, ha, by rw [← hget i hi]; exact hm, hf⟩
  have hacc : promised (asked (pre ++ o :: post)) q.answers = (asked pre).flatMap framesOf := by
    rw [← promised_accepted]
    have e2 : (q.answers.filter (fun p => decide (p.2 ≠ .refused))).map Prod.fst = List.range (asked pre).length := by
      have hs := h3.sorted
      have hq' : (run cfg size Q.new (pre ++ o :: post)).queue = [] := hq
      rw [hq', List.map_nil, List.append_nil] at hs
      refine hs.eq_of_mem_iff List.pairwise_lt_range (fun i => ?_)
      rw [List.mem_range]
      constructor
      · intro hi
        obtain ⟨p, hp, rfl⟩ := List.mem_map.1 hi
        exact h2.taken p (List.mem_of_mem_filter hp) (by simpa using (List.mem_filter.1 hp).2)
      · intro hi
        obtain ⟨a, m, ha, _, hf⟩ := hall i hi
        exact List.mem_map.2 ⟨(i, a), List.mem_filter.2 ⟨ha, by simpa using hf.1⟩, rfl⟩
    rw [← range_flatMap, ← e2, List.flatMap_map]
    unfold promised
    apply List.flatMap_congr
    intro p hp
    have hnr : p.2 ≠ .refused := by simpa using (List.mem_filter.1 hp).2
    have hpa := List.mem_of_mem_filter hp
    have hlt := h2.taken p hpa hnr
    obtain ⟨m, hm, hf⟩ := h3.kinds p hpa hnr
    rw [← hget _ hlt, hm]
    simp only [Option.map_some, Option.getD_some]
    cases ha : p.2 with
    | written x y => rfl
    | done =>
      have := hf.2.2 ha
      cases m with
      | cmd c => exact absurd rfl (this c)
      | rotate => rfl
      | snapshot => rfl
    | refused => exact absurd ha hnr
    | failed => exact absurd ha (hclean p hpa).1
    | dropped => exact absurd ha (hclean p hpa).2
  have hgood := h3.good hr he hov
  have hheld : written q.w = numbered 1 ((asked pre).flatMap framesOf) := by rw [hgood.toHeld.written, hacc]
  refine ⟨h1, ?_, ?_, ?_, ?_, ?_, hheld⟩
  · intro i c hc
    obtain ⟨a, m, ha, hm, hf⟩ := hall i (List.getElem?_eq_some_iff.1 hc).1
    cases hc.symm.trans hm
    cases a with
    | written x y => exact ⟨x, y, ha⟩
    | done => exact absurd rfl (hf.2.2 rfl c)
    | refused => exact absurd rfl hf.1
    | failed => exact absurd rfl (hclean _ ha).1
    | dropped => exact absurd rfl (hclean _ ha).2
  · intro i m0 hc hm0
    obtain ⟨a, m, ha, hm, hf⟩ := hall i (List.getElem?_eq_some_iff.1 hc).1
    cases hc.symm.trans hm
    cases a with
    | written x y =>
      obtain ⟨c, e⟩ := hf.2.1 ⟨x, y, rfl⟩
      exact absurd e (hm0 c)
    | done => exact ha
    | refused => exact absurd rfl hf.1
    | failed => exact absurd rfl (hclean _ ha).1
    | dropped => exact absurd rfl (hclean _ ha).2
  · intro i hi hlt
    obtain ⟨a, ha⟩ := hex i hlt
    cases hra : decide (a = .refused) with
    | true =>
      cases of_decide_eq_true hra
      exact ha
    | false =>
      have := h2.taken _ ha (of_decide_eq_false hra)
      simp only at this
      omega
  · intro hd
    have hs := h5 OnDisk (fun s => finish_disk hd s) (fun g h => by
      obtain ⟨a, b⟩ := h
      exact ⟨by simp [Seg.flush, a, b], rfl⟩) (fun g h => ⟨rfl, h.2⟩)
    rw [← hheld]
    unfold afterPowerLoss WalW.written
    rw [segments_kept hgood.kept]
    apply List.flatMap_congr
    intro g hg
    have : OnDisk g := by
      rcases List.mem_append.1 hg with hg | hg
      · obtain ⟨c, hc, rfl⟩ := List.mem_map.1 hg
        exact hs.done c hc
      · cases List.mem_singleton.1 hg
        exact hs.last h1
    simp [Seg.all, this.1, this.2]
  · have hs := h5 (fun g => g.buffered = []) (fun s => by
      unfold finishSeg
      split_ifs <;> rfl) (fun g h => rfl) (fun g h => h)
    rw [← hheld]
    unfold afterKill WalW.written
    rw [segments_kept hgood.kept]
    apply List.flatMap_congr
    intro g hg
    have : g.buffered = [] := by
      rcases List.mem_append.1 hg with hg | hg
      · obtain ⟨c, hc, rfl⟩ := List.mem_map.1 hg
        exact hs.done c hc
      · cases List.mem_singleton.1 hg
        exact hs.last h1
    simp [Seg.all, this]

/-! ## With a retention limit -/

/-- **C66.** A retention limit changes no answer. The log is what it would be without the limit, less some of its oldest
files: those files are gone whole, and with the last of them the log would be larger than the limit. -/
theorem a_limit_changes_no_answer (cfg : Cfg) (size : F → Nat) (os : List (Op F)) :
    let q := run cfg size Q.new os
    let p := run { cfg with retention := none } size Q.new os
    q.answers = p.answers ∧ q.queue = p.queue ∧ q.over = p.over ∧
      ∃ gone : List (Seg F × Nat), segments p.w = gone.map Prod.fst ++ segments q.w ∧
        ∀ g ∈ gone.getLast?, ∃ limit, cfg.retention = some limit ∧ limit < g.2 + sealedBytes q.w.completed + q.w.bytes := by
  intro q p
  have h := Tonbo.Lemmas.WalRetain.sim_run (cfg := cfg) size os Tonbo.Lemmas.WalRetain.sim_new
  obtain ⟨gone, h1, h2⟩ := Tonbo.Lemmas.WalRetain.less_segments h.w
  refine ⟨h.answers, h.queue, h.over, gone, h2, fun g hg => ?_⟩
  obtain ⟨t, rfl⟩ := List.getLast?_eq_some_iff.1 hg
  exact h.w.need t g (by rw [h1]; simp)

/-- **C66.** With any retention limit the log holds, while no storage call has failed, the end of what was promised: a part of
its oldest frames may be gone, and nothing else is. -/
theorem the_log_holds_the_end_of_what_was_promised (cfg : Cfg) (size : F → Nat) (os : List (Op F)) (he : Encoded (asked os)) :
    let q := run cfg size Q.new os
    (q.over ≠ some false → written q.w <:+ numbered 1 (promised (asked os) q.answers)) ∧
      (∀ pre i a b post, q.answers = pre ++ (i, .written a b) :: post →
        ∃ m, (asked os)[i]? = some m ∧ a = 1 + (promised (asked os) pre).length ∧ b + 1 = a + (framesOf m).length) := by
  intro q
  obtain ⟨h1, _, h3, gone, h4, _⟩ := a_limit_changes_no_answer cfg size os
  obtain ⟨g1, _, g3⟩ := the_log_holds_what_was_promised { cfg with retention := none } rfl size os he
  refine ⟨fun ho => ?_, fun pre i a b post e => g3 pre i a b post (h1.symm.trans e)⟩
  have e := g1 (by rw [← h3]; exact ho)
  rw [← h1] at e
  rw [← e]
  refine ⟨(gone.map Prod.fst).flatMap (·.all), ?_⟩
  unfold written
  rw [h4, List.flatMap_append]

theorem flatMap_suffix {α β : Type} (f : α → List β) {a b g : List α} (h : a = g ++ b) : b.flatMap f <:+ a.flatMap f :=
  ⟨g.flatMap f, by rw [h, List.flatMap_append]⟩

theorem length_flatMap_le {f : Seg F → List (Nat × F)} (hf : ∀ g, (f g).length ≤ g.all.length) : ∀ l : List (Seg F),
    (l.flatMap f).length ≤ (l.flatMap (·.all)).length
  | [] => Nat.le_refl _
  | x :: l => by
    have h1 := hf x
    have h2 := length_flatMap_le hf l
    simp only [List.flatMap_cons, List.length_append]
    omega

/-- If a part of every file makes up all frames, it is the whole file. -/
theorem whole_files {f : Seg F → List (Nat × F)} (hf : ∀ g, f g <+: g.all) : ∀ {l : List (Seg F)},
    (l.flatMap f).length = (l.flatMap (·.all)).length → ∀ g ∈ l, f g = g.all
  | [], _, g, hg => by simp at hg
  | x :: l, h, g, hg => by
    simp only [List.flatMap_cons, List.length_append] at h
    have h1 := (hf x).length_le
    have h2 := length_flatMap_le (fun g => (hf g).length_le) l
    rcases List.mem_cons.1 hg with rfl | hg
    · exact (hf g).eq_of_length (by omega)
    · exact whole_files hf (by omega) g hg

theorem flatMap_whole {f : Seg F → List (Nat × F)} (hf : ∀ g, f g <+: g.all) {l gone : List (Seg F)}
    (h : (gone ++ l).flatMap f = (gone ++ l).flatMap (·.all)) : l.flatMap f = l.flatMap (·.all) :=
  List.flatMap_congr (fun g hg => whole_files hf (by rw [h]) g (List.mem_append_right _ hg))

/-- **C66.** The same with any retention limit: every call made before closing has been carried out and told so, every later one
is refused; what is left of the log is the end of the frames of all commands made before, in order, and all of it is on
the disk, unless syncing is disabled, in which case the operating system has it. How much is left is the subject of
`a_limit_changes_no_answer`. -/
theorem closing_with_a_limit (cfg : Cfg) (size : F → Nat) (pre post : List (Op F)) (o : Op F)
    (ho : o = .close ∨ o = .shutdown) (hopen : StaysOpen pre) (hn : NoFaults (pre ++ o :: post))
    (he : Encoded (asked (pre ++ o :: post))) (ht : (asked pre).length < turns post) :
    let q := run cfg size Q.new (pre ++ o :: post)
    q.over = some true ∧
      (∀ i c, (asked pre)[i]? = some (.cmd c) → ∃ a b, (i, .written a b) ∈ q.answers) ∧
      (∀ i m, (asked pre)[i]? = some m → (∀ c, m ≠ .cmd c) → (i, .done) ∈ q.answers) ∧
      (∀ i, (asked pre).length ≤ i → i < (asked (pre ++ o :: post)).length → (i, .refused) ∈ q.answers) ∧
      written q.w <:+ numbered 1 ((asked pre).flatMap framesOf) ∧
      (cfg.sync ≠ .disabled → afterPowerLoss q.w = written q.w) ∧ afterKill q.w = written q.w := by
  intro q
  obtain ⟨h1, _, h3, gone, h4, _⟩ := a_limit_changes_no_answer cfg size (pre ++ o :: post)
  obtain ⟨g1, g2, g3, g4, g5, g6, hle⟩ :=
    closing_loses_nothing_partial { cfg with retention := none } rfl size pre post o ho hopen hn he ht
  have hk : ∀ g : Seg F, g.synced ++ g.flushed <+: g.all := fun g => ⟨g.buffered, rfl⟩
  have hs : ∀ g : Seg F, g.synced <+: g.all := fun g => ⟨g.flushed ++ g.buffered, by simp [Seg.all]⟩
  refine ⟨h3.trans g1, ?_, ?_, ?_, ?_, fun hd => ?_, ?_⟩
  · intro i c hc
    rw [h1]
    exact g2 i c hc
  · intro i m hm hc
    rw [h1]
    exact g3 i m hm hc
  · intro i hi hj
    rw [h1]
    exact g4 i hi hj
  · rw [← hle]
    exact flatMap_suffix _ h4
  · refine flatMap_whole hs (gone := gone.map Prod.fst) ?_
    rw [← h4]
    exact (g5 hd).trans hle.symm
  · refine flatMap_whole hk (gone := gone.map Prod.fst) ?_
    rw [← h4]
    exact g6.trans hle.symm

/-- **C66.** No call waits for ever, whatever else is asked for or fails: after as many turns of the task as there were
calls, all of them are answered. -/
theorem no_call_waits_for_ever (cfg : Cfg) (size : F → Nat) (pre post : List (Op F)) (ht : (asked pre).length ≤ turns post) (i : Nat)
    (hi : i < (asked pre).length) : ∃ a, (i, a) ∈ (run cfg size Q.new (pre ++ post)).answers := by
  have main : ∀ (os : List (Op F)) (q : Q F) (done ask : List (Msg F)) (n : Nat), ask = done ++ asked os → q.calls = done.length →
      Inv cfg ask q → n ≤ q.calls → pending n (run cfg size q os) ≤ pending n q - turns os := by
    intro os
    induction os with
    | nil => intro q _ _ n _ _ _ _; simp [run, turns]
    | cons o os ih =>
      intro q done ask n hp hc hinv hn
      have e : asked (o :: os) = asked [o] ++ asked os := asked_append [o] os
      rw [e, ← List.append_assoc] at hp
      have h1 := pending_step (size := size) hinv hn o
      have h2 := ih (step cfg size q o) (done ++ asked [o]) ask n hp (by rw [step_calls, hc, List.length_append])
        (inv_step o hinv (by
          rintro m rfl
          rw [hp, hc]
          simp [asked])) (by rw [step_calls]; omega)
      rw [turns_cons]
      simp only [run]
      omega
  obtain ⟨h, hc⟩ := inv_start cfg size (pre ++ post)
  have hask := asked_append pre post
  obtain ⟨h1, hc1⟩ : Inv cfg (asked (pre ++ post)) (run cfg size Q.new pre) ∧ (run cfg size Q.new pre).calls = (asked pre).length := by
    have key : ∀ (os : List (Op F)) (q : Q F) (done ask : List (Msg F)), done ++ asked os <+: ask → q.calls = done.length → Inv cfg ask q →
        Inv cfg ask (run cfg size q os) ∧ (run cfg size q os).calls = (done ++ asked os).length := by
      intro os
      induction os with
      | nil => intro q done ask _ hc hi; exact ⟨hi, by simp [run, asked, hc]⟩
      | cons o os ih =>
        intro q done ask hp hc hi
        have e : asked (o :: os) = asked [o] ++ asked os := asked_append [o] os
        rw [e, ← List.append_assoc] at hp ⊢
        refine ih (step cfg size q o) (done ++ asked [o]) ask hp (by rw [step_calls, hc, List.length_append]) (inv_step o hi ?_)
        rintro m rfl
        obtain ⟨t, rfl⟩ := hp
        rw [hc]
        simp [asked]
    have := key pre Q.new [] (asked (pre ++ post)) (by rw [hask]; exact List.prefix_append _ _) rfl (inv_new _ _)
    simpa using this
  have hb := main post (run cfg size Q.new pre) (asked pre) (asked (pre ++ post)) (asked pre).length hask hc1 h1 (by rw [hc1])
  rw [← run_append] at hb
  have hp0 : pending (asked pre).length (run cfg size Q.new pre) ≤ (asked pre).length := by
    have := h1.perm.length_eq
    simp only [List.length_append, List.length_map, List.length_range] at this
    have hf : pending (asked pre).length (run cfg size Q.new pre) ≤ (run cfg size Q.new pre).queue.length := List.length_filter_le _ _
    omega
  have hz : pending (asked pre).length (run cfg size Q.new (pre ++ post)) = 0 := by omega
  have hmem : i ∈ (run cfg size Q.new (pre ++ post)).answers.map Prod.fst ++ (run cfg size Q.new (pre ++ post)).queue.map Prod.fst :=
    h.perm.mem_iff.2 (List.mem_range.2 (by rw [hc, hask, List.length_append]; omega))
  rcases List.mem_append.1 hmem with hm | hm
  · obtain ⟨p, hp, rfl⟩ := List.mem_map.1 hm
    exact ⟨p.2, hp⟩
  · obtain ⟨p, hp, rfl⟩ := List.mem_map.1 hm
    unfold pending at hz
    have := List.eq_nil_of_length_eq_zero hz
    rw [List.filter_eq_nil_iff] at this
    exact absurd hi (by simpa using this p hp)

/-- **C66.** Once the task has ended, in order or not, every call is refused and nothing more is written. -/
theorem nothing_after_the_end (cfg : Cfg) (size : F → Nat) (q : Q F) (h : q.over.isSome) (os : List (Op F)) :
    (run cfg size q os).over = q.over ∧ written (run cfg size q os).w = written q.w ∧
      ∀ m, (run cfg size q (os ++ [.submit m])).answers = (run cfg size q os).answers ++ [((run cfg size q os).calls, .refused)] := by
  have main : ∀ (os : List (Op F)) (q : Q F), q.over.isSome →
      (run cfg size q os).over = q.over ∧ written (run cfg size q os).w = written q.w := by
    intro os
    induction os with
    | nil => intro q _; exact ⟨rfl, rfl⟩
    | cons o os ih =>
      intro q h
      obtain ⟨s1, s2⟩ := ended_step (cfg := cfg) (size := size) h o
      obtain ⟨i1, i2⟩ := ih (step cfg size q o) (by rw [s1]; exact h)
      exact ⟨i1.trans s1, i2.trans s2⟩
  obtain ⟨h1, h2⟩ := main os q h
  refine ⟨h1, h2, fun m => ?_⟩
  rw [run_append]
  simp only [run, step, submit]
  rw [if_pos (by rw [h1, h]; simp)]

/-! ## What does not hold -/

/-- The default configuration of the examples: a flush and a sync for every command. -/
def cfg0 : Cfg := ⟨0, true, .always, none, false⟩

/-- A call that is told of an error may have been carried out, and survives a loss of power: of two commands that the task
took together, the first is on the disk when the second fails, and both are told of the failure. -/
theorem a_failed_call_may_be_durable :
    let q := run cfg0 (fun _ : String => 1) Q.new
      [.submit (.cmd ⟨["a"], none, false⟩), .submit (.cmd ⟨["b"], none, false⟩), .turn 64 (some (1, 0))]
    q.answers = [(0, .failed), (1, .failed)] ∧ afterPowerLoss q.w = [(1, "a")] := by decide +kernel

/-- `shutdown` reports how the task ended only to the first who calls it. A second call returns success at once, while
accepted commands are not written yet, and also when the task has failed. -/
theorem a_second_shutdown_reports_nothing :
    (let q := run cfg0 (fun _ : String => 1) Q.new [.submit (.cmd ⟨["a"], none, false⟩), .shutdown]
     shutdownAtOnce q = some true ∧ q.over = none ∧ q.queue ≠ [] ∧ written q.w = []) ∧
    (let q := run cfg0 (fun _ : String => 1) Q.new [.submit (.cmd ⟨["a"], none, false⟩), .shutdown, .turn 64 (some (0, 0))]
     shutdownAtOnce q = some true ∧ q.over = some false ∧ q.answers = [(0, .failed)] ∧ written q.w = []) := by decide +kernel

/-- The first call waits. -/
theorem the_first_shutdown_waits (cfg : Cfg) (size : F → Nat) (os : List (Op F)) (h : .shutdown ∉ os) :
    shutdownAtOnce (run cfg size Q.new os) = none := by
  have main : ∀ (os : List (Op F)) (q : Q F), .shutdown ∉ os → q.taken = false → (run cfg size q os).taken = false := by
    intro os
    induction os with
    | nil => intro q _ h; exact h
    | cons o os ih =>
      intro q hn h
      refine ih _ (fun h' => hn (List.mem_cons_of_mem _ h')) ?_
      cases o with
      | submit m => simp only [step, submit]; split_ifs <;> exact h
      | shutdown => exact absurd List.mem_cons_self hn
      | turn l f =>
        cases ho : q.over with
        | some b => simp only [step]; rw [turn_over (by rw [ho]; rfl)]; exact h
        | none =>
          obtain ⟨new, ha⟩ := acts_turn cfg size [] q l f ho
          simp only [step]
          rw [ha.moves.taken]; exact h
      | timer r y f =>
        cases ho : q.over with
        | some b => simp only [step]; rw [timer_over (by rw [ho]; rfl)]; exact h
        | none =>
          obtain ⟨new, ha⟩ := acts_timer cfg [] q r y f ho
          simp only [step]
          rw [ha.moves.taken]; exact h
      | _ => exact h
  unfold shutdownAtOnce
  rw [main os Q.new h rfl]
  rfl

/-! ## The hypotheses are met -/

/-- Two writers, a rotation between their commands, a bounded batch, then the log is closed while two requests wait; a third
comes too late. -/
def exPre : List (Op String) :=
  [.submit (.cmd ⟨["begin 1", "row a"], none, false⟩), .submit (.cmd ⟨["begin 2", "row b"], none, false⟩), .submit .rotate,
    .turn 64 none, .submit (.cmd ⟨["commit 2"], some 7, false⟩), .timer true false false, .submit (.cmd ⟨["commit 1"], some 8, false⟩)]

/-- What happens after the close. -/
def exPost : List (Op String) :=
  [.turn 2 none, .submit (.cmd ⟨["late"], none, false⟩), .drain, .turn 2 none, .turn 2 none, .turn 2 none, .writeback, .turn 2 none, .turn 2 none]

example : StaysOpen exPre ∧ NoFaults (exPre ++ .shutdown :: exPost) ∧ (asked exPre).length < turns exPost := by
  refine ⟨⟨by decide, by decide⟩, ?_, by decide⟩
  simp [exPre, exPost, NoFaults]

example : Encoded (asked (exPre ++ .shutdown :: exPost)) := by
  intro c hc
  simp only [exPre, exPost, asked, List.cons_append, List.nil_append, List.mem_cons, Msg.cmd.injEq, reduceCtorEq, false_or,
    List.not_mem_nil, or_false] at hc
  rcases hc with rfl | rfl | rfl | rfl | rfl <;> simp

/-- The whole history. -/
example :
    let q := run ⟨0, false, .bytes 100, none, false⟩ (fun _ => 1) Q.new (exPre ++ .shutdown :: exPost)
    q.answers = [(0, .written 1 2), (1, .written 3 4), (2, .done), (3, .written 5 5), (4, .written 6 6), (5, .refused)] ∧
      afterPowerLoss q.w = [(1, "begin 1"), (2, "row a"), (3, "begin 2"), (4, "row b"), (5, "commit 2"), (6, "commit 1")] := by
  decide +kernel

/-- The same with a limit of four bytes and segments of two frames: the first file is gone. -/
example :
    let q := run ⟨2, false, .bytes 100, some 4, false⟩ (fun _ => 1) Q.new (exPre ++ .shutdown :: exPost)
    q.answers = [(0, .written 1 2), (1, .written 3 4), (2, .done), (3, .written 5 5), (4, .written 6 6), (5, .refused)] ∧
      afterPowerLoss q.w = [(3, "begin 2"), (4, "row b"), (5, "commit 2"), (6, "commit 1")] := by
  decide +kernel

end Tonbo.Props.C66
