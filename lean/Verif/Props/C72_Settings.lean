import Verif.Spec.SettingsView
import Mathlib.Data.List.Induction

/-!
# C72: a setting that is given takes effect
-/

namespace Tonbo.Props.C72
open Tonbo.Model Tonbo.Model.Settings Tonbo.Spec.Settings

theorem last_snoc {C α : Type} (f : C → Option α) (cs : List C) (c : C) :
    last f (cs ++ [c]) = (f c).or (last f cs) := by
  unfold last
  rw [List.filterMap_append]
  cases h : f c <;> simp [h]

theorem if_isSome {α : Type} (a b : Option α) : (if b.isSome then b else a) = b.or a := by cases b <;> rfl

theorem last_swap {C α : Type} (f : C → Option α) {a b : C} (h : f a = none ∨ f b = none) (xs ys : List C) :
    last f (xs ++ a :: b :: ys) = last f (xs ++ b :: a :: ys) := by
  unfold last
  have : (a :: b :: ys).filterMap f = (b :: a :: ys).filterMap f := by
    rcases h with h | h <;> simp [List.filterMap_cons, h]
  rw [List.filterMap_append, List.filterMap_append, this]

theorem make_snoc (root : String) (d : Bool) (cs : List Call) (c : Call) :
    Builder.make root d (cs ++ [c]) = (Builder.make root d cs).call c := by
  simp [Builder.make, List.foldl_append]

/-- What the calls on a durable builder have given for the log. -/
def overOf (cs : List Call) : Over :=
  { segBytes := last segBytesOf cs, segAge := last segAgeOf cs, flush := last flushOf cs, sync := last syncOf cs
    recovery := last recoveryOf cs, retention := last retentionOf cs, queue := last queueOf cs, dir := last dirOf cs
    backend := last backendOf cs, store := last storeOf cs }

theorem over_durable (root : String) (cs : List Call) :
    (Builder.make root true cs).over = some (overOf cs) ∧ (Builder.make root true cs).durable = true ∧
      (Builder.make root true cs).root = root := by
  induction cs using List.reverseRecOn with
  | nil => exact ⟨rfl, rfl, rfl⟩
  | append_singleton cs c ih =>
    rw [make_snoc]
    obtain ⟨h1, h2, h3⟩ := ih
    cases c <;>
      simp [Builder.call, h1, h2, h3, overOf, last_snoc, segBytesOf, segAgeOf, flushOf, syncOf, recoveryOf,
        retentionOf, queueOf, dirOf, backendOf, storeOf, Over.merge,
        if_isSome]

/-- **C72, the log.** On durable storage, whatever is called in whatever order, the log works with the last
value given for each of its settings, and with the default for the others. -/
theorem the_last_value_counts_for_the_log (root : String) (cs : List Call) :
    (Builder.make root true cs).settings.wal = some
      { dir := (last dirOf cs).getD (root ++ "/wal")
        segBytes := (last segBytesOf cs).getD (64 * 1024 * 1024)
        segAge := (last segAgeOf cs).getD none
        flush := (last flushOf cs).getD 10000000
        sync := (last syncOf cs).getD (.time 50000000)
        recovery := (last recoveryOf cs).getD .pointInTime
        retention := (last retentionOf cs).getD none
        queue := (last queueOf cs).getD 65536
        backend := (last backendOf cs).getD 1
        store := (last storeOf cs).getD (some 1)
        dryRun := false } := by
  obtain ⟨h1, h2, h3⟩ := over_durable root cs
  simp [Builder.settings, h1, h2, h3, Over.apply, overOf, walDefaults, Wal.default]

theorem rest_of_builder (root : String) (d : Bool) (cs : List Call) :
    (Builder.make root d cs).table = last tableOf cs ∧
    (Builder.make root d cs).fastAck = (last ackOf cs).getD false ∧
    (Builder.make root d cs).minor = (last minorOf cs).getD (some (4, 0)) ∧
    (Builder.make root d cs).comp = (last strategyOf cs).map (fun s =>
      { (last compOf cs).getD Comp.default with strategy := s }) := by
  induction cs using List.reverseRecOn with
  | nil => exact ⟨rfl, rfl, rfl, rfl⟩
  | append_singleton cs c ih =>
    rw [make_snoc]
    obtain ⟨h1, h2, h3, h4⟩ := ih
    cases c with
    | walConfig o =>
      simp only [Builder.call]
      split
      · simp [h1, h2, h3, h4, last_snoc, tableOf, ackOf, minorOf, strategyOf, compOf]
      · split <;> simp [h1, h2, h3, h4, last_snoc, tableOf, ackOf, minorOf, strategyOf, compOf]
    | strategy s =>
      simp only [Builder.call, h1, h2, h3, h4, last_snoc, tableOf, ackOf, minorOf, strategyOf, compOf]
      simp
      cases h : last strategyOf cs with
      | some x => simp
      | none =>
        have : last compOf cs = none := by
          unfold last at h ⊢
          rw [List.getLast?_eq_none_iff, List.filterMap_eq_nil_iff] at h ⊢
          intro c hc
          have := h c hc
          cases c <;> simp_all [strategyOf, compOf]
        simp [this]
    | _ => simp [Builder.call, h1, h2, h3, h4, last_snoc, tableOf, ackOf, minorOf, strategyOf, compOf]

/-- **C72, the other settings**: the name of the table, the answers of commits, the flushes, the compactions. A
worker runs iff options or a strategy were given; its strategy is the last one given, alone or as part of
options, and everything else comes from the last options. -/
theorem the_last_value_counts (root : String) (d : Bool) (cs : List Call) :
    let s := (Builder.make root d cs).settings
    let o := (last compOf cs).getD Comp.default
    s.table = (last tableOf cs).getD "tonbo-default" ∧
    s.fastAck = (last ackOf cs).getD false ∧
    s.minor = ((last minorOf cs).getD (some (4, 0))).map (fun p => (max p.1 1, p.2)) ∧
    s.worker = (last strategyOf cs).map (fun p => { o.worker with planner := p }) ∧
    s.back = (last strategyOf cs).bind (fun _ => o.back) ∧
    s.backoff = if (last strategyOf cs).isSome then o.backoff else ⟨50000000, 1000000000⟩ := by
  obtain ⟨h1, h2, h3, h4⟩ := rest_of_builder root d cs
  simp only [Builder.settings, h1, h2, h3, h4]
  refine ⟨trivial, trivial, trivial, ?_, ?_, ?_⟩ <;> cases last strategyOf cs <;> simp [Comp.worker, backoffDefault]

/-- **C72, the options of the compactions**: the last value given, where zero stands for one, and for no tick. By default there is
one follow-up job, half a second apart from the next, and a conflicting writer waits 50 ms at first and at most a second
(times in nanoseconds). -/
theorem the_last_value_counts_for_compactions (cs : List CompCall) :
    (Comp.make cs).worker =
      { planner := (last cStrategy cs).getD ⟨8, 6, none, [10, 12, 14], [], 10, none⟩
        rows := (last cRows cs).map (max · 1)
        bytes := (last cBytes cs).map (max · 1)
        tick := (last cTick cs).filter (· ≠ 0)
        jobs := max ((last cJobs cs).getD 1) 1
        queue := max (max ((last cQueue cs).getD 1) 1) (max ((last cJobs cs).getD 1) 1)
        cascade := (last cCascade cs).getD ⟨1, 500000000⟩ } ∧
    (Comp.make cs).back = (last cBack cs).getD (some Policy.Config.default) ∧
    (Comp.make cs).backoff = (last cBackoff cs).getD ⟨50000000, 1000000000⟩ := by
  have H : Comp.make cs =
      { strategy := (last cStrategy cs).getD Planner.PCfg.default
        jobs := max ((last cJobs cs).getD 1) 1
        queue := max ((last cQueue cs).getD 1) 1
        rows := (last cRows cs).map (max · 1)
        bytes := (last cBytes cs).map (max · 1)
        tick := (last cTick cs).filter (· ≠ 0)
        back := (last cBack cs).getD (some Policy.Config.default)
        cascade := (last cCascade cs).getD Cascade.default
        backoff := (last cBackoff cs).getD backoffDefault } := by
    induction cs using List.reverseRecOn with
    | nil => rfl
    | append_singleton cs c ih =>
      have hs : Comp.make (cs ++ [c]) = (Comp.make cs).call c := by simp [Comp.make, List.foldl_append]
      rw [hs, ih]
      cases c with
      | tick d =>
        simp only [Comp.call, last_snoc, cStrategy, cJobs, cQueue, cRows, cBytes, cTick, cBack, cCascade, cBackoff]
        by_cases hd : d = 0 <;> simp [hd, Option.filter]
      | _ => simp [Comp.call, last_snoc, cStrategy, cJobs, cQueue, cRows, cBytes, cTick, cBack, cCascade, cBackoff]
  rw [H]
  refine ⟨?_, rfl, rfl⟩
  simp only [Comp.worker, Option.map_map, Option.filter_filter]
  congr 1
  · cases last cRows cs <;> simp
  · cases last cBytes cs <;> simp
  · cases h : last cTick cs with
    | none => rfl
    | some d => by_cases hd : d = 0 <;> simp [hd, Option.filter]
  · omega
  · omega

/-- **C72, the worker can work with what it gets**: at least one job and room for it, no empty outputs, no tick
without a pause, and at least one frozen table per flush. -/
theorem settings_can_be_worked_with (root : String) (d : Bool) (cs : List Call) :
    (∀ w, (Builder.make root d cs).settings.worker = some w →
      1 ≤ w.jobs ∧ w.jobs ≤ w.queue ∧ (∀ n, w.rows = some n → 1 ≤ n) ∧ (∀ n, w.bytes = some n → 1 ≤ n) ∧
      (∀ n, w.tick = some n → 1 ≤ n)) ∧
    (∀ p, (Builder.make root d cs).settings.minor = some p → 1 ≤ p.1) := by
  constructor
  · intro w hw
    simp only [Builder.settings, Option.map_eq_some_iff] at hw
    obtain ⟨c, _, rfl⟩ := hw
    simp only [Comp.worker]
    refine ⟨by omega, by omega, ?_, ?_, ?_⟩
    · intro n hn
      obtain ⟨m, _, rfl⟩ := Option.map_eq_some_iff.1 hn
      omega
    · intro n hn
      obtain ⟨m, _, rfl⟩ := Option.map_eq_some_iff.1 hn
      omega
    · intro n hn
      have := (Option.filter_eq_some_iff.1 hn).2
      simp at this
      omega
  · intro p hp
    simp only [Builder.settings, Option.map_eq_some_iff] at hp
    obtain ⟨q, _, rfl⟩ := hp
    simp only
    omega

/-- **C72, the order of calls about different settings is irrelevant.** -/
theorem order_is_irrelevant (root : String) (xs ys : List Call) (a b : Call) (h : Apart a b) :
    (Builder.make root true (xs ++ a :: b :: ys)).settings = (Builder.make root true (xs ++ b :: a :: ys)).settings := by
  obtain ⟨h1, h2, h3, h4, h5, h6, h7, h8, h9, h10, h11, h12, h13, h14⟩ := h
  have hc : compOf a = none ∨ compOf b = none := by
    rcases h14 with h | h
    · left; cases a <;> simp_all [strategyOf, compOf]
    · right; cases b <;> simp_all [strategyOf, compOf]
  have hw := the_last_value_counts_for_the_log root (xs ++ a :: b :: ys)
  have hw' := the_last_value_counts_for_the_log root (xs ++ b :: a :: ys)
  have hr := the_last_value_counts root true (xs ++ a :: b :: ys)
  have hr' := the_last_value_counts root true (xs ++ b :: a :: ys)
  simp only [last_swap _ h1, last_swap _ h2, last_swap _ h3, last_swap _ h4, last_swap _ h5, last_swap _ h6,
    last_swap _ h7, last_swap _ h8, last_swap _ h9, last_swap _ h10] at hw
  simp only [last_swap _ h11, last_swap _ h12, last_swap _ h13, last_swap _ h14, last_swap _ hc] at hr
  rw [← hw'] at hw
  obtain ⟨a1, a2, a3, a4, a5, a6⟩ := hr
  obtain ⟨b1, b2, b3, b4, b5, b6⟩ := hr'
  generalize (Builder.make root true (xs ++ a :: b :: ys)).settings = s at *
  generalize (Builder.make root true (xs ++ b :: a :: ys)).settings = s' at *
  cases s
  cases s'
  simp only at *
  simp only [hw, a1, b1, a2, b2, a3, b3, a4, b4, a5, b5, a6, b6]

theorem call_log {b : Builder} {c : Call} (h1 : b.over = none) (h2 : b.durable = false) (h : aboutLog c = true) :
    b.call c = b := by
  obtain ⟨_, _, _, _, _, _, _⟩ := b
  simp only at h1 h2
  subst h1 h2
  cases c <;> simp [aboutLog] at h <;> simp [Builder.call]

theorem call_other {c : Call} (b : Builder) (h : aboutLog c = false) :
    (b.call c).over = b.over ∧ (b.call c).durable = b.durable := by
  cases c <;> simp [aboutLog] at h <;> simp [Builder.call]

/-- **C72, volatile storage** has no log, and calls about it change nothing. -/
theorem no_log_in_memory (root : String) (cs : List Call) :
    (Builder.make root false cs).settings.wal = none ∧
    Builder.make root false cs = Builder.make root false (cs.filter (fun c => !aboutLog c)) := by
  have H : (Builder.make root false cs).over = none ∧ (Builder.make root false cs).durable = false ∧
      Builder.make root false cs = Builder.make root false (cs.filter (fun c => !aboutLog c)) := by
    induction cs using List.reverseRecOn with
    | nil => exact ⟨rfl, rfl, rfl⟩
    | append_singleton cs c ih =>
      obtain ⟨h1, h2, h3⟩ := ih
      rw [make_snoc, List.filter_append]
      cases ha : aboutLog c with
      | true =>
        rw [call_log h1 h2 ha]
        have : [c].filter (fun c => !aboutLog c) = [] := by simp [ha]
        rw [this, List.append_nil]
        exact ⟨h1, h2, h3⟩
      | false =>
        have := call_other (Builder.make root false cs) ha
        have hf : [c].filter (fun c => !aboutLog c) = [c] := by simp [ha]
        rw [hf, make_snoc, ← h3, this.1, this.2]
        exact ⟨h1, h2, rfl⟩
  obtain ⟨_, h2, h3⟩ := H
  exact ⟨by simp [Builder.settings, h2], h3⟩

/-- **C72 fails for two of the recovery modes**: with them a new database opens, and can not be opened again. -/
theorem a_database_that_opens_once (root : String) (hr : root ≠ "") (cs : List Call)
    (h : last recoveryOf cs = some .absolute ∨ last recoveryOf cs = some .skip) :
    (Builder.make root true cs).open' false = .ok (Builder.make root true cs).settings ∧
    (Builder.make root true cs).open' true = .mode := by
  have hw := the_last_value_counts_for_the_log root cs
  have h3 := (over_durable root cs).2.2
  unfold Builder.open'
  rw [h3, if_neg hr, hw]
  rcases h with h | h <;> simp [h, hr]

/-- With the others a database opens whenever the storage does. -/
theorem other_modes_open (root : String) (hr : root ≠ "") (cs : List Call) (segments : Bool)
    (h : last recoveryOf cs ≠ some .absolute ∧ last recoveryOf cs ≠ some .skip) :
    (Builder.make root true cs).open' segments = .ok (Builder.make root true cs).settings := by
  have hw := the_last_value_counts_for_the_log root cs
  have h3 := (over_durable root cs).2.2
  unfold Builder.open'
  rw [h3, if_neg hr, hw]
  have : ∀ m, (last recoveryOf cs).getD .pointInTime = m → m ≠ .absolute ∧ m ≠ .skip := by
    rintro m rfl
    cases hl : last recoveryOf cs with
    | none => simp
    | some m => rw [hl] at h; simpa using h
  have := this _ rfl
  simp [this.1, this.2]

/-- **C72 fails for `kms_key` and `versioned`** of an object store: they reach nothing. -/
theorem two_object_store_settings_have_no_effect (s : S3) (k : Option String) (v : Option Bool) :
    S3.build { s with kmsKey := k, versioned := v } = S3.build s := rfl

/-- The others do: equal clients and roots come from equal settings. -/
theorem other_object_store_settings_have_an_effect (s t : S3) (h : S3.build s = S3.build t) :
    s.bucket = t.bucket ∧ s.prefix' = t.prefix' ∧ s.endpoint = t.endpoint ∧
    s.region.getD "us-east-1" = t.region.getD "us-east-1" ∧ s.signPayload = t.signPayload ∧ s.checksum = t.checksum := by
  simp only [S3.build, Prod.mk.injEq, Client.mk.injEq] at h
  obtain ⟨⟨a, b, c, d, e⟩, f⟩ := h
  exact ⟨a, f, c, b, d, e⟩

/-- **An object store without a prefix is accepted, but does not open.** -/
theorem an_empty_prefix_never_opens (s : S3) (h : s.prefix' = "") (cs : List Call) (segments : Bool) :
    (Builder.make s.build.2 true cs).open' segments = .root := by
  unfold Builder.open'
  have : (Builder.make s.build.2 true cs).root = "" := (over_durable _ cs).2.2.trans h
  rw [if_pos this]

/-- **C72 fails for the byte limits of the back pressure**: a value that was replaced goes on to count. The
limit for a stop is 100, though the last values given are 10 and 50. -/
theorem a_replaced_limit_still_counts :
    ((Policy.Config.new 4 8).apply [.slowdownBytes 100, .stopBytes 50, .slowdownBytes 10]).stopBytes = some 100 ∧
    ((Policy.Config.new 4 8).apply [.stopBytes 50, .slowdownBytes 10]).stopBytes = some 50 := ⟨rfl, rfl⟩

/-! ## Concrete cases -/

/-- Several settings, some of them twice, alone and in batches. -/
def exCalls : List Call :=
  [.walSegmentBytes 10, .strategy { Planner.PCfg.default with l0Trigger := 3 },
   .walConfig { segBytes := some 20, recovery := some .skip }, .comp (Comp.make [.jobs 0, .queue 3, .tick 0, .jobs 2]),
   .minor 0 0, .walRetention (some 7), .walConfig { retention := some none, dir := some "log" }]

example : (Builder.make "r" true exCalls).settings =
    { wal := some { walDefaults "r" with segBytes := 20, recovery := .skip, dir := "log" }
      table := "tonbo-default", fastAck := false, minor := some (1, 0)
      worker := some ⟨Planner.PCfg.default, none, none, none, 3, 2, Cascade.default⟩
      back := some Policy.Config.default, backoff := backoffDefault } := by decide +kernel

/-- The hypothesis of `a_database_that_opens_once`. -/
example : last recoveryOf exCalls = some .skip := rfl

/-- The hypothesis of `order_is_irrelevant`. -/
example : Apart (.walConfig { segBytes := some 20 }) (.walConfig { recovery := some .skip }) := by
  simp [Apart, segBytesOf, segAgeOf, flushOf, syncOf, recoveryOf, retentionOf, queueOf, dirOf, backendOf, storeOf,
    tableOf, ackOf, minorOf, strategyOf]

/-- It is needed: the options of the compactions contain a strategy. -/
example : (Builder.make "r" true [.strategy { Planner.PCfg.default with l0Trigger := 3 }, .comp Comp.default]).settings ≠
    (Builder.make "r" true [.comp Comp.default, .strategy { Planner.PCfg.default with l0Trigger := 3 }]).settings := by
  decide +kernel

end Tonbo.Props.C72
