import Mathlib.Tactic.DeriveCountable
import Mathlib.Logic.Equiv.List
import Mathlib.Data.Countable.Basic
import Verif.Lemmas.LogSession
import Verif.Lemmas.WalRetain

/-!
# C77: a log through sessions and crashes

`Life c d [] ss after`: a log is made, used in the sessions `ss`, each ended by a crash at any moment and opened again,
and leaves the files `after`. A crash may cut the last file at any byte behind those that surely survive, see
`Spec/LifeView.lean`.
-/

namespace Tonbo.Props.C77
open Tonbo.Model Tonbo.Model.Wal Tonbo.Model.LogLife Tonbo.Spec Tonbo.Spec.Wal Tonbo.Spec.Life
open Tonbo.Lemmas Tonbo.Lemmas.LogLife

variable {A : Type} {c : Ipc (Batch A)} {d : Crash} {ss : List (Session A × WalQ.Q Frame)} {after : List Seg}

/-- **C77.** After any number of sessions and crashes the log reads as the commands of the first session up to some
point, those of the second up to some point, and so on: nothing is lost from the middle of a session, nothing is
repeated, reordered or changed. All commands of a session that were told to be written are there if its settings ask for
that before the answer, and if it was closed. -/
theorem what_is_read_after_crashes (hc : c.Lawful) (hl : Life c d [] ss after)
    (h : ∀ p ∈ ss, Calls c p.1 ∧ Keeps d p.1 ∧ Counted p.2) :
    ∃ parts evs, List.Forall₂ (Survives d) ss parts ∧ scanWithFloor c none after = .ok evs ∧
      List.Forall₂ ComesBack parts.flatten evs := by
  obtain ⟨parts, fs, h1, h2, h3⟩ := life_image hc hl (B := []) (fun f hf => by cases hf) (.inl ⟨rfl, rfl⟩) h
  exact ⟨parts, _, h1, scan_image h3, stored_back h2⟩

theorem flatten_sublist {d : Crash} {ss : List (Session A × WalQ.Q Frame)} {parts : List (List (Wal.Cmd A))}
    (h : List.Forall₂ (Survives d) ss parts) (hp : ∀ p ∈ ss, Prompt d p.1 ∨ p.2.over = some true) :
    (ss.flatMap told).Sublist parts.flatten := by
  induction h with
  | nil => exact List.Sublist.refl _
  | @cons p part ss parts h _ ih =>
    rw [List.flatMap_cons, List.flatten_cons]
    exact (h.2 (hp p (by simp))).sublist.append (ih (fun q hq => hp q (List.mem_cons_of_mem _ hq)))

theorem flatten_exact {d : Crash} {ss : List (Session A × WalQ.Q Frame)} {parts : List (List (Wal.Cmd A))}
    (h : List.Forall₂ (Survives d) ss parts) (hp : ∀ p ∈ ss, Prompt d p.1 ∨ p.2.over = some true)
    (hd : ∀ p ∈ ss, doubtful p = []) : parts.flatten = ss.flatMap told := by
  induction h with
  | nil => rfl
  | @cons p part ss parts h _ ih =>
    rw [List.flatMap_cons, List.flatten_cons, ih (fun q hq => hp q (List.mem_cons_of_mem _ hq)) (fun q hq => hd q (List.mem_cons_of_mem _ hq))]
    have h1 := h.1
    rw [hd p (by simp), List.append_nil] at h1
    rw [h1.eq_of_length_le (h.2 (hp p (by simp))).length_le]

/-- **C77, durability:** every command that was told to be written is read back, in the order of the answers, whatever
sessions and crashes follow. -/
theorem what_was_told_is_read (hc : c.Lawful) (hl : Life c d [] ss after)
    (h : ∀ p ∈ ss, Calls c p.1 ∧ Keeps d p.1 ∧ Counted p.2) (hp : ∀ p ∈ ss, Prompt d p.1 ∨ p.2.over = some true) :
    ∃ xs evs, (ss.flatMap told).Sublist xs ∧ scanWithFloor c none after = .ok evs ∧ List.Forall₂ ComesBack xs evs := by
  obtain ⟨parts, evs, h1, h2, h3⟩ := what_is_read_after_crashes hc hl h
  exact ⟨_, evs, flatten_sublist h1 hp, h2, h3⟩

/-- **C77, and nothing else** is read if no call was told of an error. -/
theorem exactly_what_was_told_is_read (hc : c.Lawful) (hl : Life c d [] ss after)
    (h : ∀ p ∈ ss, Calls c p.1 ∧ Keeps d p.1 ∧ Counted p.2) (hp : ∀ p ∈ ss, Prompt d p.1 ∨ p.2.over = some true)
    (hd : ∀ p ∈ ss, doubtful p = []) :
    ∃ evs, scanWithFloor c none after = .ok evs ∧ List.Forall₂ ComesBack (ss.flatMap told) evs := by
  obtain ⟨parts, evs, h1, h2, h3⟩ := what_is_read_after_crashes hc hl h
  rw [flatten_exact h1 hp hd] at h3
  exact ⟨evs, h2, h3⟩

/-- **C77, opening:** whatever the crashes left, the log can be opened again with any settings, and its files are in the
order of their numbers. -/
theorem a_log_can_be_opened_again (hc : c.Lawful) (hl : Life c d [] ss after)
    (h : ∀ p ∈ ss, Calls c p.1 ∧ Keeps d p.1 ∧ Counted p.2) (cfg : WalW.Cfg) (st : Option WState) :
    (∃ w, openWriter cfg st after = .ok w ∧ w.dead = false) ∧ (after.map (·.seq)).Pairwise (· < ·) := by
  obtain ⟨parts, fs, h1, h2, h3⟩ := life_image hc hl (B := []) (fun f hf => by cases hf) (.inl ⟨rfl, rfl⟩) h
  refine ⟨?_, image_sorted h3⟩
  obtain ⟨w, h4, h5⟩ := open_image h3 d (cfg := WalRetain.free cfg) rfl st True
  have h6 : openWriter cfg st after = .ok (WalW.retain cfg w) := by
    unfold openWriter at h4 ⊢
    cases ht : tailMetadata after with
    | error e => rw [ht] at h4; cases h4
    | ok tail =>
      rw [ht] at h4
      simp only [Except.ok.injEq] at h4 ⊢
      rw [← h4, WalW.retain_none (cfg := WalRetain.free cfg) rfl]
  refine ⟨_, h6, ?_⟩
  unfold WalW.retain
  cases cfg.retention with
  | none => exact h5.alive
  | some limit =>
    obtain ⟨gone, g1, _⟩ := WalRetain.evict_zero limit w.bytes w.completed
    simp only [h5.sound.kept, g1, Bool.not_true]

/-- **C77, the table:** recovery from these files succeeds and holds exactly the writes of the committed transactions
among the commands read, if the committed payloads fit the table. -/
theorem the_recovered_table {K R : Type} [LinearOrder K] (hc : c.Lawful) (hl : Life c d [] ss after)
    (h : ∀ p ∈ ss, Calls c p.1 ∧ Keeps d p.1 ∧ Counted p.2)
    (ext : R → Option K) (sch : Sch A K R) (pol : Nat → Bool) (cap : Nat) (hcap : 0 < cap) (hint : Option Nat) :
    ∃ parts evs, List.Forall₂ (Survives d) ss parts ∧ List.Forall₂ ComesBack parts.flatten evs ∧
      (GoodLog ext sch evs → ∃ r, recoverDb ext sch pol c cap none hint after = some r ∧
        C28.Holds r.mem (logWrites ext sch evs)) := by
  obtain ⟨parts, fs, h1, h2, h3⟩ := life_image hc hl (B := []) (fun f hf => by cases hf) (.inl ⟨rfl, rfl⟩) h
  exact ⟨parts, _, h1, stored_back h2, recover_image h3 ext sch pol cap hcap hint⟩

/-! ## A concrete life -/

section Example

/-- A row with a timestamp. -/
def exBatch : Batch Unit := ⟨[⟨"k", false, .u64 [some 10]⟩], []⟩
def exLogged : Batch Unit := ⟨[⟨"k", false, .u64 [some 10]⟩, ⟨"_commit_ts", false, .u64 [some 6]⟩], []⟩

instance (n : Nat) : Countable (BitVec n) := Function.Injective.countable (f := BitVec.toNat) (fun _ _ h => BitVec.eq_of_toNat_eq h)
instance : Countable Char := Function.Injective.countable (f := Char.toNat) (fun _ _ h => Char.ext (UInt32.toNat_inj.1 h))
instance : Countable String := Function.Injective.countable (f := String.toList) (fun _ _ h => String.toList_injective h)
deriving instance Countable for Col
deriving instance Countable for Fld
deriving instance Countable for Batch

/-- A codec: `exLogged` is one byte, every other batch a number of zeros. -/
noncomputable def exIpc : Ipc (Batch Unit) :=
  letI : Encodable (Batch Unit) := Encodable.ofCountable _
  { enc := fun b => if b = exLogged then [1] else List.replicate (Encodable.encode b + 2) 0
    dec := fun l => if l = [1] then some [exLogged] else (Encodable.decode (l.length - 2)).map ([·]) }

theorem exIpc_lawful : exIpc.Lawful := by
  let _ : Encodable (Batch Unit) := Encodable.ofCountable _
  refine ⟨fun b => ?_, fun b => ?_⟩
  · unfold exIpc
    simp only
    by_cases h : b = exLogged
    · rw [if_pos h, if_pos rfl, h]
    · rw [if_neg h, if_neg]
      · rw [List.length_replicate, Nat.add_sub_cancel, Encodable.encodek]
        rfl
      · intro e
        have := congrArg List.length e
        simp at this
  · unfold exIpc
    simp only
    split
    · simp
    · simp

/-- Segments of 50 bytes, every write flushed and synced before it is answered. -/
def exCfg : WalW.Cfg := ⟨50, true, .always, none, false⟩

def exCall (x : Wal.Cmd Unit) : WalQ.Op (Wal.Cmd Unit) := .submit (.cmd ⟨[x], none, false⟩)

/-- A transaction is written; of a second one the commit fails after its frame was written. -/
def exFirst : Session Unit := ⟨exCfg, none,
  [exCall (.begin 1), exCall (.row 1 exBatch (.u64 [some 6])), .turn 64 none, exCall (.commit 1 6), .turn 64 none,
    exCall (.begin 2), .turn 64 none, exCall (.commit 2 9), .turn 64 (some (0, 1))]⟩

/-- The log is used again. -/
def exSecond : Session Unit := ⟨exCfg, none, [exCall (.begin 3), exCall (.abort 3), .turn 64 none]⟩

/-- A crash that leaves `n` bytes behind those that surely survive. -/
def exLeave (n : Nat) (w : WalW.W Frame) : List Seg :=
  (WalW.segments w).map (fun g => ⟨g.seq, [], (bytesOf g.all).take ((bytesOf (safe .power g)).length + n)⟩)

theorem exLeave_left (n : Nat) (w : WalW.W Frame) : Left .power w (exLeave n w) := by
  refine .inl ?_
  unfold exLeave
  induction WalW.segments w with
  | nil => exact List.Forall₂.nil
  | cons g gs ih =>
    refine List.Forall₂.cons ⟨rfl, ?_, List.take_prefix _ _⟩ ih
    rw [List.prefix_take_iff]
    refine ⟨?_, Nat.le_add_right _ _⟩
    obtain ⟨t, ht⟩ := safe_all .power g
    rw [← ht]
    exact ⟨bytesOf t, by simp [bytesOf]⟩

/-- The writer that is opened on the files. -/
def exOpen (files : List Seg) : WalW.W Frame :=
  match openWriter exCfg none files with
  | .ok w => w
  | .error _ => WalW.W.new

theorem exOpen_eq {files : List Seg} (h : ∃ w, openWriter exCfg none files = .ok w ∧ w.dead = false) :
    openWriter exCfg none files = .ok (exOpen files) := by
  obtain ⟨w, h, _⟩ := h
  unfold exOpen
  rw [h]

noncomputable def exQ1 : WalQ.Q Frame := runSession exIpc exFirst (exOpen [])
/-- The first crash tears the frame of the failed commit. -/
noncomputable def exFiles1 : List Seg := exLeave 30 exQ1.w
noncomputable def exQ2 : WalQ.Q Frame := runSession exIpc exSecond (exOpen exFiles1)
noncomputable def exFiles2 : List Seg := exLeave 0 exQ2.w

example : told (exFirst, exQ1) = [.begin 1, .row 1 exBatch (.u64 [some 6]), .commit 1 6, .begin 2] ∧
    doubtful (exFirst, exQ1) = [.commit 2 9] ∧ told (exSecond, exQ2) = [.begin 3, .abort 3] := by
  refine ⟨?_, ?_, ?_⟩ <;> decide +kernel

/-- Three files; the last one ends with a torn frame, and is cut when it is opened. -/
example : exFiles1.map (fun f => (f.seq, f.data.length)) = [(0, 73), (1, 72), (2, 30)] ∧
    (exOpen exFiles1).active.all = [] ∧ exFiles2.map (fun f => (f.seq, f.data.length)) = [(0, 73), (1, 72), (2, 64), (3, 0)] := by
  refine ⟨?_, ?_, ?_⟩ <;> decide +kernel

theorem exCalls {s : Session Unit} (h : s = exFirst ∨ s = exSecond) : Calls exIpc s := by
  intro m hm
  have plain : ∀ x : Wal.Cmd Unit, (∀ id b ts, x ≠ .row id b ts) → (∀ id b, x ≠ .delete id b) → ∃ t, Stamped x t :=
    fun x h1 h2 => ⟨0, fun id b ts e => absurd e (h1 id b ts), fun id b e => absurd e (h2 id b)⟩
  rcases h with rfl | rfl
  · simp only [exFirst, exCall, WalQ.asked, List.mem_cons, List.not_mem_nil, or_false, WalQ.Msg.cmd.injEq] at hm
    rcases hm with rfl | rfl | rfl | rfl | rfl
    · exact ⟨_, rfl, plain _ (by simp) (by simp), by decide +kernel⟩
    · refine ⟨_, rfl, ⟨6, ?_, by simp⟩, by decide +kernel⟩
      intro id b ts e
      cases e
      refine ⟨⟨by decide, ?_, ?_⟩, ?_, rfl⟩ <;> unfold exBatch <;> simp [Col.len, Col.hasNulls, Batch.rows, NoReserved]
    · exact ⟨_, rfl, plain _ (by simp) (by simp), by decide +kernel⟩
    · exact ⟨_, rfl, plain _ (by simp) (by simp), by decide +kernel⟩
    · exact ⟨_, rfl, plain _ (by simp) (by simp), by decide +kernel⟩
  · simp only [exSecond, exCall, WalQ.asked, List.mem_cons, List.not_mem_nil, or_false, WalQ.Msg.cmd.injEq] at hm
    rcases hm with rfl | rfl
    · exact ⟨_, rfl, plain _ (by simp) (by simp), by decide +kernel⟩
    · exact ⟨_, rfl, plain _ (by simp) (by simp), by decide +kernel⟩

theorem exKeeps {s : Session Unit} (h : s = exFirst ∨ s = exSecond) : Keeps .power s ∧ Prompt .power s := by
  rcases h with rfl | rfl <;> exact ⟨⟨rfl, fun _ h => by cases h⟩, fun _ _ => .inl rfl, fun _ => rfl⟩

theorem exLife1 : Life exIpc .power [] [(exFirst, exQ1)] exFiles1 :=
  .session (w := exOpen []) rfl (exLeave_left _ _) (.none _)

theorem exGood1 : ∀ p ∈ [(exFirst, exQ1)], Calls exIpc p.1 ∧ Keeps .power p.1 ∧ Counted p.2 := by
  intro p hp
  rw [List.mem_singleton] at hp
  subst hp
  exact ⟨exCalls (.inl rfl), (exKeeps (.inl rfl)).1, by unfold Counted; decide +kernel⟩

theorem exLife2 : Life exIpc .power [] [(exFirst, exQ1), (exSecond, exQ2)] exFiles2 :=
  .session (w := exOpen []) rfl (exLeave_left _ _) (.session (w := exOpen exFiles1)
    (exOpen_eq (a_log_can_be_opened_again exIpc_lawful exLife1 exGood1 exCfg none).1) (exLeave_left _ _) (.none _))

/-- Every hypothesis of the theorems holds of this life. -/
theorem exGood2 : ∀ p ∈ [(exFirst, exQ1), (exSecond, exQ2)],
    (Calls exIpc p.1 ∧ Keeps .power p.1 ∧ Counted p.2) ∧ (Prompt .power p.1 ∨ p.2.over = some true) := by
  intro p hp
  rcases List.mem_cons.1 hp with rfl | hp
  · exact ⟨exGood1 _ (by simp), .inl (exKeeps (.inl rfl)).2⟩
  · rw [List.mem_singleton] at hp
    subst hp
    exact ⟨⟨exCalls (.inr rfl), (exKeeps (.inr rfl)).1, by unfold Counted; decide +kernel⟩, .inl (exKeeps (.inr rfl)).2⟩

/-- The log of the two sessions: the torn commit is gone, all else is there. -/
example : ∃ xs evs, [Wal.Cmd.begin 1, .row 1 exBatch (.u64 [some 6]), .commit 1 6, .begin 2, .begin 3, .abort 3].Sublist xs ∧
    scanWithFloor exIpc none exFiles2 = .ok evs ∧ List.Forall₂ ComesBack xs evs := by
  have h := what_was_told_is_read exIpc_lawful exLife2 (fun p hp => (exGood2 p hp).1) (fun p hp => (exGood2 p hp).2)
  have e : [(exFirst, exQ1), (exSecond, exQ2)].flatMap told =
      [Wal.Cmd.begin 1, .row 1 exBatch (.u64 [some 6]), .commit 1 6, .begin 2, .begin 3, .abort 3] := by decide +kernel
  rwa [e] at h

/-- The recovered table shows the row of the first transaction. -/
example : (recoverDb C28.exExt C28.exSch (fun _ => false) exIpc 4 none none exFiles2).map
      (fun r => (r.mem.runs, Mem.scan r.mem.mem none 9, r.clock)) = some ([], some [.row ⟨10, 6⟩ 10], 7) := by
  decide +kernel

end Example

end Tonbo.Props.C77
