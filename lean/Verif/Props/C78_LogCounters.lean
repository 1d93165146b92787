import Verif.Lemmas.WalDepth
import Verif.Model.WalPrune

/-!
# C78  The counters of the log tell the truth
-/

namespace Tonbo.Props.C78
open Tonbo.Model
open Tonbo.Model.WalW (Cfg W Cmd Seg afterPowerLoss)
open Tonbo.Model.WalQ (Q Msg Ans)
open Tonbo.Model.WalS Tonbo.Spec.WalS Tonbo.Lemmas.WalS
open Tonbo.Spec.WalQ (promised inDoubt)

variable {F : Type}

/-! ## Bytes -/

/-- **The counter of the bytes.** After every history it says how many bytes the frames of the acknowledged commands have,
as long as the task has not ended by an error. After an error it says at least that many, and at most the bytes of the
commands that were told of an error more. (Up to the largest number a counter can hold.) -/
theorem bytes_written (cfg : Cfg) (size : F → Nat) (ops : List (Op F)) (s : S F) (hs : s = run cfg size S.new ops) :
    (s.q.over ≠ some false → s.t.bytes = upTo (bytesOf size (promised (sent ops) s.q.answers))) ∧
    upTo (bytesOf size (promised (sent ops) s.q.answers)) ≤ s.t.bytes ∧
    s.t.bytes ≤ upTo (bytesOf size (promised (sent ops) s.q.answers) + bytesOf size (inDoubt (sent ops) s.q.answers)) := by
  subst hs
  rcases (told_new cfg size ops).count with ⟨_, h2, h3⟩ | ⟨h1, h2, h3⟩
  · refine ⟨fun _ => h3, h3.ge, ?_⟩
    rw [h2, h3]
    exact upTo_mono (by omega)
  · exact ⟨fun h => absurd h1 h, h2, h3⟩

/-! ## Syncs -/

/-- **The counter of the syncs never says too much**: it counts at most the `fsync`s the disk has seen. -/
theorem not_more_than_was_synced (cfg : Cfg) (size : F → Nat) (ops : List (Op F)) :
    (run cfg size S.new ops).t.syncs ≤ (run cfg size S.new ops).t.fsyncs := by
  have : ∀ (ops : List (Op F)) (s : S F), s.t.syncs ≤ s.t.fsyncs → (run cfg size s ops).t.syncs ≤ (run cfg size s ops).t.fsyncs := by
    intro ops
    induction ops with
    | nil => exact fun _ h => h
    | cons o os ih =>
      intro s h
      obtain ⟨k, n, ⟨h1, h2⟩, h3, _⟩ := step_step (cfg := cfg) (size := size) s o
      refine ih _ ?_
      rw [h1, h2]
      by_cases hk : k = 0
      · rw [if_pos hk]
        omega
      · rw [if_neg hk]
        have : upTo (s.t.syncs + k) ≤ s.t.syncs + k := Nat.min_le_left _ _
        omega
  exact this ops _ (Nat.le_refl _)

/-- **A sync does not go unnoticed.** In a step that does not end the task by an error, the counter grows if and only if the
disk saw an `fsync` (unless it cannot grow any more). -/
theorem syncs_are_noticed (cfg : Cfg) (size : F → Nat) (s : S F) (o : Op F) (hlim : s.t.syncs + 2 < 2 ^ 64)
    (hok : s.q.over = none → (step cfg size s o).q.over ≠ some false) :
    s.t.syncs < (step cfg size s o).t.syncs ↔ s.t.fsyncs < (step cfg size s o).t.fsyncs := by
  obtain ⟨k, n, ⟨h1, h2⟩, h3, h4⟩ := step_step (cfg := cfg) (size := size) s o
  have h4 := h4 hok
  rw [h1, h2]
  by_cases hk : k = 0
  · rw [if_pos hk]
    omega
  · rw [if_neg hk]
    have : s.t.syncs < upTo (s.t.syncs + k) := by
      unfold upTo
      omega
    omega

/-- With syncing disabled there are none, and none are counted. (The timer to sync is only set with the policy that has
one.) -/
theorem disabled_means_none (cfg : Cfg) (h : cfg.sync = .disabled) (size : F → Nat) (ops : List (Op F))
    (ht : ∀ r y f, Op.timer r y f ∈ ops → y = false) :
    (run cfg size S.new ops).t.fsyncs = 0 ∧ (run cfg size S.new ops).t.syncs = 0 := by
  have hr : rotationSyncs cfg = false := by simp [rotationSyncs, h]
  have hd : ∀ w : W F, syncDue cfg w = false := fun w => by simp [syncDue, h]
  have hrot : ∀ (w : W F) c, rotatesSyncing cfg size w c = false := fun w c => by simp [rotatesSyncing, hr]
  have hc : ∀ (w : W F) c, cmdFsyncs cfg size w c = 0 := fun w c => by simp [cmdFsyncs, hrot, hd]
  have hb : ∀ (cs : List (Cmd F)) (w : W F), batchFsyncs cfg size w cs = 0 := by
    intro cs
    induction cs with
    | nil => exact fun _ => rfl
    | cons c cs ih =>
      intro w
      unfold batchFsyncs
      generalize WalW.enqueue cfg size w c = r
      obtain ⟨w', a⟩ := r
      cases a <;> simp [hc, ih]
  have hq : ∀ w : W F, requestSyncs cfg w = false := fun w => by simp [requestSyncs, hr]
  have ho : ∀ (t : Tally) (w : W F) f m, (otherTally cfg t w f m).fsyncs = t.fsyncs := by
    intro t w f m
    cases m with
    | rotate => simp only [otherTally, hq]; split_ifs <;> rfl
    | _ => rfl
  have hw : ∀ (t : Tally) (w : W F) cs, (batchWrote cfg size t w cs).fsyncs = t.fsyncs := fun t w cs => (batchWrote_syncs cs w t).2
  have hh : ∀ (t : Tally) (w : W F) f cs d, (handledTally cfg size t w f cs d).fsyncs = t.fsyncs := by
    intro t w f cs d
    unfold handledTally
    generalize WalW.enqueueAll cfg size w cs = r
    obtain ⟨w', a⟩ := r
    cases a with
    | none => simp [disk_fsyncs, hb, hw]
    | some as =>
      cases d with
      | none => simp [disk_fsyncs, synced_fsyncs, hb, hw]
      | some d => simp [ho, disk_fsyncs, synced_fsyncs, hb, hw]
  have hbt : ∀ (t : Tally) (w : W F) f late cs d, (batchTally cfg size t w f late cs d).fsyncs = t.fsyncs := by
    intro t w f late cs d
    unfold batchTally
    cases f with
    | none => exact hh _ _ _ _ _
    | some nk =>
      simp only
      split_ifs
      all_goals first
        | exact hh _ _ _ _ _
        | simp [disk_fsyncs, hb, hw]
  have hf : ∀ (t : Tally) f, (finishTally cfg t f).fsyncs = t.fsyncs := by
    intro t f
    unfold finishTally
    rw [hr]
    cases f <;> rfl
  have hstep : ∀ (s : S F) (o : Op F), (∀ r y f, o = .timer r y f → y = false) → (step cfg size s o).t.fsyncs = s.t.fsyncs := by
    intro s o hy
    cases o with
    | send m => cases m <;> rfl
    | turn l f late =>
      simp only [step, turn]
      by_cases h1 : s.q.over.isSome = true
      · rw [if_pos h1]
      · rw [if_neg h1]
        cases s.q.queue with
        | nil =>
          simp only
          split_ifs
          all_goals first
            | rfl
            | exact hf _ _
        | cons p rest =>
          obtain ⟨i, m⟩ := p
          cases m with
          | cmd c => exact hbt _ _ _ _ _ _
          | _ => exact ho _ _ _ _
    | timer r y f =>
      have := hy r y f rfl
      subst this
      simp only [step, timer]
      split_ifs
      · rfl
      · simp only [timerTally, timerSyncs, hq, Bool.and_false, Bool.false_and, Bool.or_false]
        split_ifs <;> rfl
    | report =>
      simp only [step]
      split_ifs <;> rfl
    | _ => rfl
  have hall : ∀ (os : List (Op F)) (s : S F), (∀ r y f, Op.timer r y f ∈ os → y = false) →
      (run cfg size s os).t.fsyncs = s.t.fsyncs := by
    intro os
    induction os with
    | nil => exact fun _ _ => rfl
    | cons o os ih =>
      intro s hy
      exact (ih _ (fun r y f hm => hy r y f (List.mem_cons_of_mem _ hm))).trans
        (hstep s o (fun r y f e => hy r y f (e ▸ List.mem_cons_self ..)))
  have h0 := hall ops S.new ht
  have h1 := not_more_than_was_synced cfg size ops
  have : (S.new : S F).t.fsyncs = 0 := rfl
  omega

/-- **Nothing gets to the disk unseen.** A step in which the disk sees no `fsync` leaves what a power loss would leave as it
was (the operating system writing back on its own aside, and in a log that keeps all its files). -/
theorem no_sync_no_change (cfg : Cfg) (hr : cfg.retention = none) (size : F → Nat) (s : S F) (o : Op F) (ho : o ≠ .writeback)
    (hp : s.q.w.pruned = 0) (h : (step cfg size s o).t.fsyncs = s.t.fsyncs) :
    afterPowerLoss (step cfg size s o).q.w = afterPowerLoss s.q.w := by
  cases o with
  | turn l f late => exact same_disk (same_turn hr s l f late h) hp
  | timer r y f => exact same_disk (same_timer hr s r y f h) hp
  | writeback => exact absurd rfl ho
  | send m =>
    cases m <;>
    · simp only [step, WalQ.submit]
      split_ifs <;> rfl
  | report =>
    simp only [step]
    split_ifs <;> rfl
  | drain => exact same_disk (same_flush true s.q.w) hp
  | _ => rfl

/-! ## Depth -/

/-- **The depth, when it is taken.** The metric after a turn that takes a command is the number of commands that were in the
channel behind it, plus the callers between adding themselves and being in the channel (or being refused). (Modulo the
size of the counter.) -/
theorem depth_when_taken (cfg : Cfg) (size : F → Nat) (ops : List (Op F)) (ho : Orderly cfg size S.new ops) (s : S F)
    (hs : s = run cfg size S.new ops) (hover : s.q.over = none) (i : Nat) (c : Cmd F) (rest : List (Nat × Msg F))
    (hq : s.q.queue = (i, .cmd c) :: rest) (l : Nat) (f : Option (Nat × Nat)) (late : Bool) :
    (step cfg size s (.turn l f late)).t.depth = (waiting rest + s.door + s.away) % 2 ^ 64 := by
  subst hs
  have hd := deep_run ops _ deep_new ho hover
  generalize run cfg size S.new ops = s at *
  have h0 : ¬ s.q.over.isSome = true := by rw [hover]; simp
  simp only [step, turn]
  rw [if_neg h0, hq]
  simp only [batchTally_depth]
  rw [hq] at hd
  simp only [S.first, hd, waiting]
  rw [bv_sub_one (by omega), BitVec.toNat_ofNat]
  congr 1
  omega

/-- **The depth at the end.** If nobody is on the way when the task ends (the log is closed and the channel empty), the last
thing it reports is the number of callers that came since and are not gone yet. -/
theorem depth_at_the_end (cfg : Cfg) (size : F → Nat) (before after : List (Op F)) (l : Nat) (late : Bool)
    (ho : Orderly cfg size S.new (before ++ .turn l none late :: after)) (s : S F) (hs : s = run cfg size S.new before)
    (hover : s.q.over = none) (hq : s.q.queue = []) (hc : s.q.closed = true) (hd : s.door = 0) (ha : s.away = 0)
    (hr : Op.report ∉ after) (e : S F) (he : e = run cfg size S.new (before ++ .turn l none late :: after)) :
    (step cfg size e .report).t.depth = (e.door + e.away) % 2 ^ 64 := by
  subst hs
  obtain ⟨_, ho2⟩ := orderly_append _ _ _ ho
  rw [run_append] at he
  generalize run cfg size S.new before = s at *
  obtain ⟨_, _, ho3⟩ := ho2
  have h0 : ¬ s.q.over.isSome = true := by rw [hover]; simp
  have e1 : step cfg size s (.turn l none late) =
      { s with q := WalQ.turn cfg size s.q l none, t := finishTally cfg s.t false, depth := 0, ending := true } := by
    simp only [step, turn]
    rw [if_neg h0, hq]
    simp only [hc, if_true]
    rfl
  have hcalm : Calm (step cfg size s (.turn l none late)) := by
    rw [e1]
    refine ⟨?_, by simp [hd, ha]⟩
    simp only [WalQ.turn]
    rw [if_neg h0, hq]
    simp only [hc, if_true]
    rfl
  have hend : (step cfg size s (.turn l none late)).ending = true := by rw [e1]
  have h1 := calm_run after _ hcalm ho3
  have h2 := ending_run after _ hcalm hend ho3 hr
  subst he
  simp only [run]
  generalize run cfg size (step cfg size s (.turn l none late)) after = e at *
  simp only [step, h2, if_true, h1.2, BitVec.toNat_ofNat]

/-! ## Pruning -/

open Tonbo.Model.WalP (P pruneFiles)

/-- How many files a log had at first and later on. -/
def opened (n : Nat) : List WalP.Op → Nat
  | [] => n
  | .file _ :: os => opened (n + 1) os
  | _ :: os => opened n os

theorem filter_split (l : List Nat) (f : Nat) :
    (l.filter (fun x => decide (x < f))).length + (l.filter (fun x => decide (f ≤ x))).length = l.length := by
  induction l with
  | nil => rfl
  | cons a l ih =>
    by_cases h : a < f
    · rw [List.filter_cons_of_pos (by simpa using h), List.filter_cons_of_neg (by simpa using h)]
      simp only [List.length_cons]
      omega
    · rw [List.filter_cons_of_neg (by simpa using h), List.filter_cons_of_pos (by simpa using h)]
      simp only [List.length_cons]
      omega

/-- What one pruning returns is the number of files gone, or nothing. -/
theorem pruned_and_left (f : Nat) (fs : List Nat) (x : Option Nat) :
    (∀ n, (pruneFiles false f fs x).2 = some n → (pruneFiles false f fs x).1.length + n = fs.length) ∧
    (pruneFiles false f fs x).1.length ≤ fs.length := by
  have hs := filter_split fs f
  unfold pruneFiles
  simp only [Bool.false_eq_true, if_false]
  by_cases h0 : f = 0
  · rw [if_pos h0]
    refine ⟨fun n h => ?_, Nat.le_refl _⟩
    cases h
    rfl
  · rw [if_neg h0]
    cases x with
    | none =>
      refine ⟨fun n h => ?_, List.length_filter_le _ _⟩
      cases h
      simp only
      omega
    | some j =>
      simp only
      split_ifs
      · refine ⟨fun n h => (by cases h), ?_⟩
        simp only [List.length_append, List.length_drop]
        omega
      · refine ⟨fun n h => ?_, List.length_filter_le _ _⟩
        cases h
        simp only
        omega

/-- **The counter of the files removed never says too much.** Whatever is done to a log and whatever fails, the number
counted and the files still there are together at most the files the log ever had. -/
theorem not_more_than_was_removed (files : List Nat) (floor : Option Nat) (ops : List WalP.Op) :
    (WalP.run false (P.new files floor) ops).c.pruned + (WalP.run false (P.new files floor) ops).files.length
      ≤ opened files.length ops := by
  have : ∀ (ops : List WalP.Op) (p : P) (n : Nat), p.c.pruned + p.files.length ≤ n →
      (WalP.run false p ops).c.pruned + (WalP.run false p ops).files.length ≤ opened n ops := by
    intro ops
    induction ops with
    | nil => exact fun _ _ h => h
    | cons o os ih =>
      intro p n h
      cases o with
      | file k =>
        refine ih _ _ ?_
        simp only [WalP.step, List.length_append, List.length_singleton]
        omega
      | floor f => exact ih _ _ h
      | evict =>
        refine ih _ _ ?_
        simp only [WalP.step, List.length_tail]
        omega
      | txn x =>
        refine ih _ _ ?_
        simp only [WalP.step, WalP.txn]
        cases p.floor with
        | none => exact h
        | some f =>
          have := (pruned_and_left f p.files x).2
          simp only
          omega
      | flush x =>
        refine ih _ _ ?_
        simp only [WalP.step, WalP.flush]
        cases p.floor with
        | none => exact h
        | some f =>
          have h1 := pruned_and_left f p.files x
          cases hr : (pruneFiles false f p.files x).2 with
          | none =>
            simp only [hr, WalP.record]
            omega
          | some k =>
            have := h1.1 k hr
            have : satAdd p.c.pruned k ≤ p.c.pruned + k := Nat.min_le_left _ _
            simp only [hr, WalP.record, Bool.false_eq_true, if_false]
            omega
  exact this ops _ _ (by simp [P.new])

/-- **It is exact when only flushes remove files, and none of them fails.** -/
theorem removed_files_partial (files : List Nat) (floor : Option Nat) (ops : List WalP.Op) (hlim : opened files.length ops < 2 ^ 64)
    (h1 : ∀ x, WalP.Op.txn x ∉ ops) (h2 : WalP.Op.evict ∉ ops) (h3 : ∀ j, WalP.Op.flush (some j) ∉ ops) :
    (WalP.run false (P.new files floor) ops).c.pruned + (WalP.run false (P.new files floor) ops).files.length
      = opened files.length ops ∧
    (WalP.run false (P.new files floor) ops).c.failures = 0 := by
  have grows : ∀ (ops : List WalP.Op) (n : Nat), n ≤ opened n ops := by
    intro ops
    induction ops with
    | nil => exact fun _ => Nat.le_refl _
    | cons o os ih =>
      intro n
      cases o with
      | file k => exact Nat.le_trans (Nat.le_succ n) (ih (n + 1))
      | _ => exact ih n
  have : ∀ (ops : List WalP.Op) (p : P) (n : Nat), opened n ops < 2 ^ 64 → (∀ x, WalP.Op.txn x ∉ ops) → WalP.Op.evict ∉ ops →
      (∀ j, WalP.Op.flush (some j) ∉ ops) → p.c.pruned + p.files.length = n → p.c.failures = 0 →
      (WalP.run false p ops).c.pruned + (WalP.run false p ops).files.length = opened n ops ∧
      (WalP.run false p ops).c.failures = 0 := by
    intro ops
    induction ops with
    | nil => exact fun _ _ _ _ _ _ h h' => ⟨h, h'⟩
    | cons o os ih =>
      intro p n hl a1 a2 a3 h h'
      have b1 : ∀ x, WalP.Op.txn x ∉ os := fun x hm => a1 x (List.mem_cons_of_mem _ hm)
      have b2 : WalP.Op.evict ∉ os := fun hm => a2 (List.mem_cons_of_mem _ hm)
      have b3 : ∀ j, WalP.Op.flush (some j) ∉ os := fun x hm => a3 x (List.mem_cons_of_mem _ hm)
      cases o with
      | file k =>
        refine ih _ _ hl b1 b2 b3 ?_ h'
        simp only [WalP.step, List.length_append, List.length_singleton]
        omega
      | floor f => exact ih _ _ hl b1 b2 b3 h h'
      | evict => exact absurd (List.mem_cons_self ..) a2
      | txn x => exact absurd (List.mem_cons_self ..) (a1 x)
      | flush x =>
        cases x with
        | some j => exact absurd (List.mem_cons_self ..) (a3 j)
        | none =>
          have hn := grows os n
          have hl' : opened n os < 2 ^ 64 := hl
          have key : (WalP.flush false p none).c.pruned + (WalP.flush false p none).files.length = n ∧
              (WalP.flush false p none).c.failures = 0 := by
            unfold WalP.flush
            cases p.floor with
            | none => exact ⟨h, h'⟩
            | some f =>
              have h1 := pruned_and_left f p.files none
              cases hr : (pruneFiles false f p.files none).2 with
              | none =>
                exfalso
                unfold pruneFiles at hr
                simp only [Bool.false_eq_true, if_false] at hr
                split_ifs at hr
              | some k =>
                have := h1.1 k hr
                simp only [hr, WalP.record, Bool.false_eq_true, if_false, satAdd]
                exact ⟨by omega, h'⟩
          exact ih _ _ hl b1 b2 b3 key.1 key.2
  exact this ops _ _ hlim h1 h2 h3 (by simp [P.new]) rfl

/-- **Pruning spares what recovery needs.** Neither a flush nor a transaction removes a file that is not below the floor,
and neither adds one; whatever fails. -/
theorem pruning_spares (dryRun : Bool) (p : P) (x : Option Nat) (o : WalP.Op) (ho : o = .flush x ∨ o = .txn x) :
    (∀ n ∈ (WalP.step dryRun p o).files, n ∈ p.files) ∧
    ∀ n ∈ p.files, (∀ f, p.floor = some f → f ≤ n) → n ∈ (WalP.step dryRun p o).files := by
  have e : (WalP.step dryRun p o).files =
      match p.floor with | none => p.files | some f => (pruneFiles dryRun f p.files x).1 := by
    rcases ho with rfl | rfl
    · simp only [WalP.step, WalP.flush]
      cases p.floor <;> rfl
    · simp only [WalP.step, WalP.txn]
      cases p.floor <;> rfl
  rw [e]
  cases p.floor with
  | none => exact ⟨fun _ h => h, fun _ h _ => h⟩
  | some f =>
    simp only [Option.some.injEq, forall_eq']
    have key : ∀ j, (∀ n ∈ (p.files.filter (fun x => decide (x < f))).drop j ++ p.files.filter (fun x => decide (f ≤ x)), n ∈ p.files) ∧
        ∀ n ∈ p.files, f ≤ n → n ∈ (p.files.filter (fun x => decide (x < f))).drop j ++ p.files.filter (fun x => decide (f ≤ x)) := by
      intro j
      refine ⟨fun n hn => ?_, fun n hn h => List.mem_append_right _ (List.mem_filter.mpr ⟨hn, by simpa using h⟩)⟩
      rcases List.mem_append.mp hn with h | h
      · exact List.mem_of_mem_filter (List.mem_of_mem_drop h)
      · exact List.mem_of_mem_filter h
    have key2 : (∀ n ∈ p.files.filter (fun x => decide (f ≤ x)), n ∈ p.files) ∧
        ∀ n ∈ p.files, f ≤ n → n ∈ p.files.filter (fun x => decide (f ≤ x)) :=
      ⟨fun n hn => List.mem_of_mem_filter hn, fun n hn h => List.mem_filter.mpr ⟨hn, by simpa using h⟩⟩
    unfold pruneFiles
    simp only
    split_ifs
    · exact ⟨fun _ h => h, fun _ h _ => h⟩
    · exact ⟨fun _ h => h, fun _ h _ => h⟩
    · exact ⟨fun _ h => h, fun _ h _ => h⟩
    · cases x with
      | none => exact key2
      | some j =>
        simp only
        split_ifs
        · exact key j
        · exact key2

/-- **A dry run removes nothing and counts the rest**: a flush adds the number of files below the floor, or one failure. -/
theorem dry_run (p : P) (f : Nat) (hf : p.floor = some f) (x : Option Nat) :
    (WalP.step true p (.flush x)).files = p.files ∧ (WalP.step true p (.txn x)).files = p.files ∧
    (WalP.step true p (.flush x)).c.pruned = p.c.pruned ∧
    ((WalP.step true p (.flush x)).c.dryRuns = satAdd p.c.dryRuns (p.files.filter (fun n => decide (n < f))).length ∧
        (WalP.step true p (.flush x)).c.failures = p.c.failures ∨
      (WalP.step true p (.flush x)).c.dryRuns = p.c.dryRuns ∧
        (WalP.step true p (.flush x)).c.failures = satAdd p.c.failures 1 ∧ x = some 0) := by
  simp only [WalP.step, WalP.flush, WalP.txn, hf, pruneFiles, if_true]
  by_cases h : x = some 0
  · simp only [if_pos h, WalP.record]
    exact ⟨trivial, trivial, trivial, .inr ⟨trivial, trivial, h⟩⟩
  · simp only [if_neg h, WalP.record, if_true]
    exact ⟨trivial, trivial, trivial, .inl ⟨trivial, trivial⟩⟩

/-! ## Where the counters say something else -/

/-- Syncing after every command, one big file. -/
def always : Cfg := ⟨1000, true, .always, none, false⟩

/-- A command of one frame. -/
def one (f : Nat) : Cmd Nat := ⟨[f], none, false⟩

/-- Two callers whose commands are taken together. -/
def two : List (Op Nat) := [.arrive, .send (.cmd (one 5)), .arrive, .send (.cmd (one 7)), .turn 8 none false]

/-- **Syncs are counted by the batch.** Two commands that are each synced, taken together: the disk saw two `fsync`s, the
counter says one. -/
theorem syncs_counted_by_the_batch :
    (run always id S.new two).t.fsyncs = 2 ∧ (run always id S.new two).t.syncs = 1 := by decide

/-- **The depth stays behind.** After both commands are written and acknowledged and nothing waits the metric still says
that one is waiting; and it goes on saying so until the next command is taken. -/
theorem depth_stays_behind :
    (run always id S.new two).q.queue = [] ∧ (run always id S.new two).depth = 0 ∧
    (run always id S.new two).q.answers.length = 2 ∧ (run always id S.new two).t.depth = 1 ∧
    (run always id S.new (two ++ [.timer true true false, .send .rotate, .turn 8 none false, .drain])).t.depth = 1 := by
  refine ⟨?_, ?_, ?_, ?_, ?_⟩ <;> decide

/-- A caller that is refused and takes its one back after the task has set the depth to zero. -/
def refusedLate : List (Op Nat) := [.arrive, .shutdown, .send (.cmd (one 5)), .turn 8 none false, .leave, .report]

/-- **The depth can end far off**: then the last metric of an orderly shutdown is the largest number there is. -/
theorem depth_wraps_around :
    Orderly always id S.new refusedLate ∧ (run always id S.new refusedLate).q.over = some true ∧
    (run always id S.new refusedLate).t.depth = 2 ^ 64 - 1 := by
  refine ⟨?_, ?_, ?_⟩
  · refine ⟨fun c h => (by cases h), fun h => (by cases h), fun c h => (by cases h), fun h => (by cases h), fun c _ => by decide,
      fun h => (by cases h), fun c h => (by cases h), fun h => (by cases h), fun c h => (by cases h), fun _ => by decide,
      fun c h => (by cases h), fun h => (by cases h), trivial⟩
  · decide
  · decide

/-- **A floor that stands still is counted as advancing**: with every flush, whether it moved or not and whether or not
there was a file below. -/
theorem floors_that_do_not_move :
    (WalP.run false (P.new [4, 5] (some 4)) [.flush none, .flush none, .flush none]).c = ⟨3, 0, 0, 0⟩ ∧
    (WalP.run false (P.new [4, 5] (some 4)) [.flush none, .flush none, .flush none]).files = [4, 5] := by decide

/-- **Files that go uncounted**: by a transaction, by the writer, and by a flush that fails half way — the last counts as a
failure although files are gone; and a transaction that fails does not count at all. -/
theorem files_that_go_uncounted :
    (WalP.run false (P.new [1, 2, 3] (some 3)) [.txn none]) = ⟨[3], some 3, ⟨0, 0, 0, 0⟩⟩ ∧
    (WalP.run false (P.new [1, 2, 3] (some 3)) [.evict]) = ⟨[2, 3], some 3, ⟨0, 0, 0, 0⟩⟩ ∧
    (WalP.run false (P.new [1, 2, 3] (some 3)) [.flush (some 1)]) = ⟨[2, 3], some 3, ⟨0, 0, 0, 1⟩⟩ ∧
    (WalP.run false (P.new [1, 2, 3] (some 3)) [.txn (some 1)]) = ⟨[2, 3], some 3, ⟨0, 0, 0, 0⟩⟩ := by decide

/-! ## Examples -/

/-- Bytes: twelve were acknowledged; a fault in the second of two commands leaves the first counted, and it is in doubt. -/
example : (run always id S.new two).t.bytes = 12 ∧
    promised (sent two) (run always id S.new two).q.answers = [5, 7] := by decide

/-- The same with a failing write in the second command. -/
def failing : List (Op Nat) := two.dropLast ++ [.turn 8 (some (1, 0)) false]

example : (run always id S.new failing).q.over = some false ∧ (run always id S.new failing).t.bytes = 5 ∧
    promised (sent failing) (run always id S.new failing).q.answers = [] ∧
    inDoubt (sent failing) (run always id S.new failing).q.answers = [5, 7] := by
  refine ⟨?_, ?_, ?_, ?_⟩ <;> decide

/-- The hypotheses of `syncs_are_noticed`, with a step that syncs. -/
example : (run always id S.new two.dropLast).t.syncs + 2 < 2 ^ 64 ∧
    (run always id S.new two.dropLast).t.fsyncs < (step always id (run always id S.new two.dropLast) (.turn 8 none false)).t.fsyncs ∧
    (step always id (run always id S.new two.dropLast) (.turn 8 none false)).q.over = none := by
  refine ⟨?_, ?_, ?_⟩ <;> decide

/-- With syncing disabled the same calls are acknowledged and nothing is on the disk. -/
example : (run { always with sync := .disabled } id S.new two).t = ⟨1, 12, 0, 0⟩ ∧
    afterPowerLoss (run { always with sync := .disabled } id S.new two).q.w = [] ∧
    afterPowerLoss (run always id S.new two).q.w ≠ [] := by
  refine ⟨?_, ?_, ?_⟩ <;> decide

/-- The hypotheses of `depth_when_taken`. -/
example : Orderly always id S.new two.dropLast ∧ (run always id S.new two.dropLast).q.over = none ∧
    (run always id S.new two.dropLast).q.queue = [(0, .cmd (one 5)), (1, .cmd (one 7))] := by
  refine ⟨?_, ?_, ?_⟩
  · refine ⟨fun c h => (by cases h), fun h => (by cases h), fun c _ => by decide, fun h => (by cases h), fun c h => (by cases h),
      fun h => (by cases h), fun c _ => by decide, fun h => (by cases h), trivial⟩
  · decide
  · decide

/-- The hypotheses of `depth_at_the_end`: one caller comes after the end, is refused, and is not gone when the task reports. -/
example : Orderly always id S.new ((two ++ [.shutdown]) ++ .turn 8 none false :: [.arrive, .send (.cmd (one 1))]) ∧
    (run always id S.new (two ++ [.shutdown])).q.over = none ∧ (run always id S.new (two ++ [.shutdown])).q.queue = [] ∧
    (run always id S.new (two ++ [.shutdown])).q.closed = true ∧ (run always id S.new (two ++ [.shutdown])).door = 0 ∧
    (run always id S.new (two ++ [.shutdown])).away = 0 ∧
    (run always id S.new ((two ++ [.shutdown]) ++ .turn 8 none false :: [.arrive, .send (.cmd (one 1)), .report])).t.depth = 1 := by
  refine ⟨?_, ?_, ?_, ?_, ?_, ?_, ?_⟩
  · refine ⟨fun c h => (by cases h), fun h => (by cases h), fun c _ => by decide, fun h => (by cases h), fun c h => (by cases h),
      fun h => (by cases h), fun c _ => by decide, fun h => (by cases h), fun c h => (by cases h), fun h => (by cases h),
      fun c h => (by cases h), fun h => (by cases h), fun c h => (by cases h), fun h => (by cases h), fun c h => (by cases h),
      fun h => (by cases h), fun c _ => by decide, fun h => (by cases h), trivial⟩
  all_goals decide

/-- The hypotheses of `removed_files_partial`: two files opened, two removed. -/
example : WalP.run false (P.new [1, 2] none) [.file 3, .floor (some 3), .flush none, .file 4] =
      ⟨[3, 4], some 3, ⟨1, 2, 0, 0⟩⟩ ∧
    opened 2 [.file 3, .floor (some 3), .flush none, .file 4] = 4 := by decide

/-- A dry run. -/
example : WalP.run true (P.new [1, 2, 3] (some 3)) [.flush none, .flush none, .flush (some 0)] =
    ⟨[1, 2, 3], some 3, ⟨2, 0, 4, 1⟩⟩ := by decide

end Tonbo.Props.C78
