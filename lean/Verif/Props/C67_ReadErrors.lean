import Verif.Lemmas.ReadMerge
import Verif.Props.C05_C06_Scan
import Verif.Props.C13_Sst

/-!
# C67: a failed read is reported, never hidden

Reads may fail at any point: a batch of a data file or of its sidecar that cannot be fetched or decoded, a row that cannot be
decoded, a source of any other kind. `Reads xs s` (`Spec/ReadView.lean`) says that the poll results `s` return the entries `xs` in
order, with any number of polls that are not ready, until the end or until a first error, behind which anything may come.
-/

set_option linter.unusedSectionVars false

namespace Tonbo.Props.C67
open Tonbo.Model Tonbo.Model.Mem Tonbo.Spec Tonbo.Spec.ReadE Tonbo.Lemmas.Sst
open Tonbo.Model.Merge (Prio Poll)
open Tonbo.Model.ReadE (Ev readFile scanStreams FSt pollsOn)
open Tonbo.Props.C06 (selected)
open Tonbo.Model.Sst (File)

variable {K R Q E : Type} [LinearOrder K]

/-- The first rows of an answer, all of them without a limit. -/
def firstN : Option Nat → List Q → List Q
  | none, l => l
  | some n, l => l.take n

/-- **C67**, for a scan over any sources. `out` is the right answer. The batches returned before an error are a beginning of it, cut
at the limit and filtered; without an error they are all of it. Without a limit a scan that reports no error has met no failing
read in any source. An error is one that a source or the filter has reported. -/
theorem a_scan_with_failing_reads (eval : Option (R → Except E Bool)) (proj : R → Q) (batchSize : Nat) (hb : 0 < batchSize)
    (limit : Option Nat) (ss : List (Prio × List (Ev (Entry K R) E))) (ts : List (Prio × List (Entry K R)))
    (hr : List.Forall₂ (fun a b => a.1 = b.1 ∧ Reads b.2 a.2) ss ts) (H : Nat → Ver K R → Prop) (rts : Nat) (inRange : K → Prop)
    (hsrc : ∀ (i : Nat) (p : Prio) (xs : List (Entry K R)), ts[i]? = some (p, xs) → IsVersionScan (H i) rts inRange (xs.map toVer))
    (hfun : Functional (fun w => ∃ i < ts.length, H i w)) :
    ∃ out, IsRangeScan (fun w => ∃ i < ts.length, H i w) rts inRange out ∧
      ((∀ ev, eval = some ev → ∀ p ∈ out, ∃ b, ev p.2 = .ok b) →
        ∃ bs er, scanStreams eval proj batchSize limit ss = some (bs, er) ∧
          bs.flatten <+: firstN limit (selected eval proj out) ∧
          (er = none → bs.flatten = firstN limit (selected eval proj out)) ∧
          (er = none → limit = none → ∀ ps ∈ ss, Clean ps.2) ∧
          (∀ e, er = some e → (∃ ps ∈ ss, .err e ∈ ps.2) ∨ ∃ ev r, eval = some ev ∧ ev r = .error e) ∧
          ∀ b ∈ bs, b ≠ [] ∧ b.length ≤ batchSize) := by
  obtain ⟨cs, h1, h2⟩ := Lemmas.ReadE.agree_of_reads hr
  have hlen : cs.length = ts.length := by rw [← h2, List.length_map]
  have hget : ∀ (i : Nat) (p : Prio) (c : List (Option (Entry K R))), cs[i]? = some (p, c) →
      IsVersionScan (H i) rts inRange ((c.filterMap id).map toVer) := by
    intro i p c hc
    refine hsrc i p _ ?_
    rw [← h2, List.getElem?_map, hc]
    rfl
  rw [← hlen] at hfun
  obtain ⟨tr, t1, t2⟩ := C05.merged_scan cs H rts inRange hget hfun
  rw [hlen] at t2
  refine ⟨_, t2, fun hev => ?_⟩
  have ha : ∀ ps ∈ cs, (ps.2.filterMap id).Pairwise (fun a b => a.kt.key < b.kt.key) := by
    intro ps hps
    obtain ⟨i, hi⟩ := List.mem_iff_getElem?.1 hps
    have := (hget i ps.1 ps.2 hi).1
    rw [List.pairwise_map] at this
    refine this.imp (fun {a b} h => ?_)
    cases a <;> cases b <;> exact h
  obtain ⟨tr', u1, u2⟩ := C06.scan_batches eval proj batchSize hb limit cs ha
  rw [t1] at u1
  obtain rfl := Option.some.inj u1
  obtain ⟨bs, b1, b2, b3⟩ := u2 hev
  have b3' : bs.flatten = firstN limit (selected eval proj (rowsOf (tr.filterMap id))) := by
    rw [b3]
    cases limit <;> rfl
  obtain ⟨bs', er', g1, g2, g3⟩ := Lemmas.ReadE.scanStreams_same eval proj batchSize hb limit ss cs h1 b1
  refine ⟨bs', er', g1, ?_, fun he => ?_, fun he => (g3 he).2.2, ?_, fun b hm => b2 b (g2.subset hm)⟩
  · rw [← b3']
    obtain ⟨t, rfl⟩ := g2
    exact ⟨t.flatten, by rw [List.flatten_append]⟩
  · rw [(g3 he).1, b3']
  · rintro e rfl
    exact Lemmas.ReadE.scanStreams_from g1

/-- **C67**, for one file whose batches are read in any pieces: the entries come in the right order, all of them unless an error is
reported; an error is reported exactly if a read of the data or of the sidecar fails, and it is that error. -/
theorem a_file_with_failing_reads (f : File K R) (hs : FileSorted f) (rts : Nat)
    (data : List (Ev (List (Except E (KT K × R))) E)) (dels : List (Ev (List (Except E (KT K))) E))
    (hd : Reads f.data (rows data)) (hx : Reads f.dels (rows dels)) :
    ∃ evs out, readFile rts data dels = some evs ∧ IsVersionScan (FileVersions f) rts (fun _ => True) (out.map toVer) ∧
      Reads out evs ∧ (Clean evs ↔ Clean (rows data) ∧ Clean (rows dels)) ∧
      ∀ e, .err e ∈ evs → .err e ∈ rows data ∨ .err e ∈ rows dels := by
  obtain ⟨out, o1, o2⟩ := C13.sst_scan f hs rts
  obtain ⟨evs, h1, h2, h3⟩ := Lemmas.ReadE.readFile_spec f (fun _ => true) rts o1 (data := data) (dels := dels)
    (by rw [List.filter_eq_self.2 (fun _ _ => rfl)]; exact hd) hx
  refine ⟨evs, out, h1, o2, h2, ⟨h3, fun hc e he => ?_⟩, fun e he => Lemmas.ReadE.readFile_from h1 he⟩
  rcases Lemmas.ReadE.readFile_from h1 he with h | h
  · exact hc.1 e h
  · exact hc.2 e h

/-- A file and what its two streams will return. -/
structure FileRead (K R E : Type) where
  prio : Prio
  file : File K R
  data : List (Ev (List (Except E (KT K × R))) E)
  dels : List (Ev (List (Except E (KT K))) E)

/-- The streams of the files at `rts`. -/
def openAll (rts : Nat) (fs : List (FileRead K R E)) : Option (List (Prio × List (Ev (Entry K R) E))) :=
  fs.mapM (fun f => (readFile rts f.data f.dels).map (fun s => (f.prio, s)))

theorem openAll_spec (rts : Nat) : ∀ (fs : List (FileRead K R E)),
    (∀ f ∈ fs, FileSorted f.file ∧ Reads f.file.data (rows f.data) ∧ Reads f.file.dels (rows f.dels)) →
    ∃ ss ts, openAll rts fs = some ss ∧ List.Forall₂ (fun a b => a.1 = b.1 ∧ Reads b.2 a.2) ss ts ∧ ts.length = fs.length ∧
      (∀ (i : Nat) (p : Prio) (xs : List (Entry K R)), ts[i]? = some (p, xs) → ∃ f, fs[i]? = some f ∧
        IsVersionScan (FileVersions f.file) rts (fun _ => True) (xs.map toVer)) ∧
      ((∀ ps ∈ ss, Clean ps.2) → ∀ f ∈ fs, Clean (rows f.data) ∧ Clean (rows f.dels)) ∧
      ∀ e, (∃ ps ∈ ss, .err e ∈ ps.2) → ∃ f ∈ fs, .err e ∈ rows f.data ∨ .err e ∈ rows f.dels
  | [], _ => ⟨[], [], rfl, .nil, rfl, fun i p xs h => by simp at h, fun _ f hf => by simp at hf, fun e h => by simp at h⟩
  | f :: fs, h => by
    obtain ⟨hs, hd, hx⟩ := h f List.mem_cons_self
    obtain ⟨ss, ts, i1, i2, i3, i4, i5, i6⟩ := openAll_spec rts fs (fun g hg => h g (List.mem_cons_of_mem _ hg))
    obtain ⟨evs, out, r1, r2, r3, r4, r5⟩ := a_file_with_failing_reads f.file hs rts f.data f.dels hd hx
    refine ⟨(f.prio, evs) :: ss, (f.prio, out) :: ts, ?_, .cons ⟨rfl, r3⟩ i2, by simp [i3], ?_, ?_, ?_⟩
    · unfold openAll at i1 ⊢
      simp only [List.mapM_cons, r1, Option.map_some, i1]
      rfl
    · intro i p xs hi
      cases i with
      | zero =>
        simp only [List.getElem?_cons_zero, Option.some.injEq, Prod.mk.injEq] at hi
        obtain ⟨rfl, rfl⟩ := hi
        exact ⟨f, rfl, r2⟩
      | succ i => exact i4 i p xs hi
    · intro hc g hg
      rcases List.mem_cons.1 hg with rfl | hg
      · exact r4.1 (hc _ List.mem_cons_self)
      · exact i5 (fun ps hps => hc ps (List.mem_cons_of_mem _ hps)) g hg
    · rintro e ⟨ps, hps, he⟩
      rcases List.mem_cons.1 hps with rfl | hps
      · exact ⟨f, List.mem_cons_self, r5 e he⟩
      · obtain ⟨g, g1, g2⟩ := i6 e ⟨ps, hps, he⟩
        exact ⟨g, List.mem_cons_of_mem _ g1, g2⟩

/-- **C67**, for a scan over files: every failing read of every file is reported if there is no limit; with or without a limit the
rows returned are the right ones in the right order, and all of them if no error is reported; an error is that of a read. -/
theorem a_scan_over_failing_files (proj : R → Q) (batchSize : Nat) (hb : 0 < batchSize) (limit : Option Nat) (rts : Nat)
    (fs : List (FileRead K R E))
    (h : ∀ f ∈ fs, FileSorted f.file ∧ Reads f.file.data (rows f.data) ∧ Reads f.file.dels (rows f.dels))
    (hfun : Functional (fun w => ∃ f ∈ fs, FileVersions f.file w)) :
    ∃ ss out bs er, openAll rts fs = some ss ∧ IsScan (fun w => ∃ f ∈ fs, FileVersions f.file w) rts out ∧
      scanStreams none proj batchSize limit ss = some (bs, er) ∧
      bs.flatten <+: firstN limit (out.map (fun p => proj p.2)) ∧
      (er = none → bs.flatten = firstN limit (out.map (fun p => proj p.2))) ∧
      (limit = none → (er = none ↔ ∀ f ∈ fs, Clean (rows f.data) ∧ Clean (rows f.dels))) ∧
      ∀ e, er = some e → ∃ f ∈ fs, .err e ∈ rows f.data ∨ .err e ∈ rows f.dels := by
  obtain ⟨ss, ts, i1, i2, i3, i4, i5, i6⟩ := openAll_spec rts fs h
  have hver : ∀ w, (∃ i < ts.length, ∃ f, fs[i]? = some f ∧ FileVersions f.file w) ↔ ∃ f ∈ fs, FileVersions f.file w := by
    intro w
    constructor
    · rintro ⟨i, _, f, hf, hw⟩
      exact ⟨f, List.mem_of_getElem? hf, hw⟩
    · rintro ⟨f, hf, hw⟩
      obtain ⟨i, hi⟩ := List.mem_iff_getElem?.1 hf
      exact ⟨i, by rw [i3]; exact (List.getElem?_eq_some_iff.1 hi).1, f, hi, hw⟩
  obtain ⟨out, o1, o2⟩ := a_scan_with_failing_reads (E := E) none proj batchSize hb limit ss ts i2
    (fun i w => ∃ f, fs[i]? = some f ∧ FileVersions f.file w) rts (fun _ => True)
    (fun i p xs hi => by
      obtain ⟨f, f1, f2⟩ := i4 i p xs hi
      have : (fun w => ∃ g, fs[i]? = some g ∧ FileVersions g.file w) = FileVersions f.file := by
        funext w
        refine propext ⟨?_, fun hw => ⟨f, f1, hw⟩⟩
        rintro ⟨g, hg, hw⟩
        rw [f1] at hg
        cases hg
        exact hw
      rw [this]
      exact f2)
    (fun a b ha hb' => hfun a b ((hver a).1 ha) ((hver b).1 hb'))
  obtain ⟨bs, er, b1, b2, b3, b4, b5, _⟩ := o2 (by simp)
  have hsel : selected (none : Option (R → Except E Bool)) proj out = out.map (fun p => proj p.2) := by
    unfold selected
    rw [List.filter_eq_self.2 (fun _ _ => rfl)]
  rw [hsel] at b2 b3
  have herr : ∀ e, er = some e → ∃ f ∈ fs, .err e ∈ rows f.data ∨ .err e ∈ rows f.dels := by
    intro e he
    rcases b5 e he with h1 | ⟨ev, r, hev, _⟩
    · exact i6 e h1
    · cases hev
  refine ⟨ss, out, bs, er, i1, ⟨o1.1, fun k v => ?_⟩, b1, b2, b3, fun hl => ⟨fun he => i5 (b4 he hl), fun hc => ?_⟩, herr⟩
  · rw [o1.2 k v]
    have : (fun w => ∃ i < ts.length, ∃ f, fs[i]? = some f ∧ FileVersions f.file w) = (fun w => ∃ f ∈ fs, FileVersions f.file w) :=
      funext (fun w => propext (hver w))
    rw [this]
    simp
  · cases er with
    | none => rfl
    | some e =>
      obtain ⟨f, hf, he | he⟩ := herr e rfl
      · exact absurd he ((hc f hf).1 e)
      · exact absurd he ((hc f hf).2 e)

/-! Two files. The first holds key 1 at 5, key 2 at 5 and a deletion of key 2 at 7; the second holds key 1 at 3 and key 3 at 4. -/
section Example

def exA : File Nat Nat := ⟨[(⟨1, 5⟩, 15), (⟨2, 5⟩, 25)], [⟨2, 7⟩]⟩
def exB : File Nat Nat := ⟨[(⟨1, 3⟩, 13), (⟨3, 4⟩, 34)], []⟩

def goodA : FileRead Nat Nat String :=
  ⟨.sstable, exA, [.item [.ok (⟨1, 5⟩, 15)], .pending, .item [.ok (⟨2, 5⟩, 25)]], [.pending, .item [.ok ⟨2, 7⟩]]⟩
def goodB : FileRead Nat Nat String := ⟨.sstable, exB, [.item [.ok (⟨1, 3⟩, 13), .ok (⟨3, 4⟩, 34)]], []⟩
/-- The second batch of the first file cannot be read. -/
def badA : FileRead Nat Nat String :=
  ⟨.sstable, exA, [.item [.ok (⟨1, 5⟩, 15)], .pending, .err "io", .item [.ok (⟨9, 9⟩, 0)]], [.item [.ok ⟨2, 7⟩]]⟩
/-- Its sidecar cannot be read. -/
def badX : FileRead Nat Nat String := ⟨.sstable, exA, [.item [.ok (⟨1, 5⟩, 15), .ok (⟨2, 5⟩, 25)]], [.err "sidecar"]⟩
/-- The second row of the second file cannot be decoded. -/
def badB : FileRead Nat Nat String := ⟨.sstable, exB, [.item [.ok (⟨1, 3⟩, 13), .error "decode"]], []⟩

def exScan (limit : Option Nat) (fs : List (FileRead Nat Nat String)) : Option (List (List Nat) × Option String) :=
  (openAll 9 fs).bind (scanStreams none id 1 limit)

example : exScan none [goodA, goodB] = some ([[15], [34]], none) ∧
    exScan none [badA, goodB] = some ([], some "io") ∧
    exScan none [goodA, badB] = some ([], some "decode") ∧
    exScan none [badX, goodB] = some ([], some "sidecar") ∧
    exScan (some 1) [goodA, goodB] = some ([[15]], none) ∧
    exScan (some 0) [goodA, badB] = some ([], none) := by
  refine ⟨?_, ?_, ?_, ?_, ?_, ?_⟩ <;> decide +kernel

example : ∀ f ∈ [badA, badB], FileSorted f.file ∧ Reads f.file.data (rows f.data) ∧ Reads f.file.dels (rows f.dels) := by
  intro f hf
  simp only [List.mem_cons, List.not_mem_nil, or_false] at hf
  rcases hf with rfl | rfl
  · refine ⟨by constructor <;> decide, .item (.pending .err), .item .nil⟩
  · refine ⟨by constructor <;> decide, .item .err, .nil⟩

example : Functional (fun w => ∃ f ∈ [badA, badB], FileVersions f.file w) := by
  have key : ∀ f ∈ [badA, badB], ∀ w : Ver Nat Nat, FileVersions f.file w →
      w = ⟨1, 5, .put 15⟩ ∨ w = ⟨2, 5, .put 25⟩ ∨ w = ⟨2, 7, .del⟩ ∨ w = ⟨1, 3, .put 13⟩ ∨ w = ⟨3, 4, .put 34⟩ := by
    rintro f hf ⟨k, t, _ | r⟩ hw
    · obtain ⟨h1, _⟩ := hw
      have h2 := firstIn_mem h1
      simp only [List.mem_cons, List.not_mem_nil, or_false] at hf
      rcases hf with rfl | rfl <;> simp [badA, badB, exA, exB] at h2 ⊢ <;> omega
    · simp only [List.mem_cons, List.not_mem_nil, or_false] at hf
      rcases hf with rfl | rfl <;> simp [FileVersions, badA, badB, exA, exB] at hw ⊢
      omega
  rintro a b ⟨f, hf, ha⟩ ⟨g, hg, hb⟩ h1 h2
  rcases key f hf a ha with rfl | rfl | rfl | rfl | rfl <;> rcases key g hg b hb with rfl | rfl | rfl | rfl | rfl <;>
    simp at h1 h2 ⊢

/-- A consumer that goes on after an error is told of deleted rows: the sidecar with the deletion of key 2 at 7 cannot be read, which
the first poll reports; the next polls return key 1 and key 2. -/
theorem polling_on_after_an_error :
    pollsOn 9 4 (FSt.new badX.data badX.dels) =
      [.ready (some (.error "sidecar")), .ready (some (.ok (.row ⟨1, 5⟩ 15))), .ready (some (.ok (.row ⟨2, 5⟩ 25))), .ready none] := by
  decide +kernel

end Example

end Tonbo.Props.C67
