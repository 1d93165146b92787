import Verif.Spec.TxnView

/-!
# The transitions of the thread model, one constructor for each kind
-/

set_option linter.unusedSectionVars false

namespace Tonbo.Lemmas.Txn
open Tonbo.Model Tonbo.Model.Txn Tonbo.Model.Lsm Tonbo.Spec

variable {K R : Type} [LinearOrder K]

/-- What an operation can do to the system, if `Q` holds of every operation in the state where it
happens. -/
inductive Tr (e : Env K R) (Q : Sys K R → Txn.Op K R → Prop) (s : Sys K R) : Sys K R → Prop where
  | stay : Tr e Q s s
  | bg (o : Lsm.Op K R) (h : background o = true) (hq : Q s (.lsm o)) :
      Tr e Q s { s with db := (Lsm.step e.ext e.x e.table s.db o).2, trace := s.trace ++ [o],
                        ok := s.ok && (Lsm.step e.ext e.x e.table s.db o).1 }
  | read (p : Nat) (hd) (v) (h : s.procs p = .idle) (hv : Manifest.snapshotLatest s.db.kv e.table = .ok (hd, v))
      (hq : Q s (.readVersion p)) :
      Tr e Q s (setProc s p (.opening v))
  | open (p : Nat) (v) (h : s.procs p = .opening v) (hq : Q s (.openTxn p)) :
      Tr e Q s (setProc s p (.opened ⟨⟨s.clock - 1, v⟩, [], s.done.length⟩))
  | stageUp (p : Nat) (t : Txn K R) (r : R) (k : K) (h : s.procs p = .opened t) (hk : e.ext r = some k) :
      Tr e Q s (setProc s p (.opened { t with staged := SMap.insert k (.up r) t.staged }))
  | stageDel (p : Nat) (t : Txn K R) (k : K) (h : s.procs p = .opened t) :
      Tr e Q s (setProc s p (.opened { t with staged := SMap.insert k .del t.staged }))
  | quit (p : Nat) (t : Txn K R) (h : s.procs p = .opened t) : Tr e Q s (setProc s p .idle)
  | call (p : Nat) (t : Txn K R) (h : s.procs p = .opened t) (hne : t.staged ≠ []) :
      Tr e Q s (setProc s p (.locking t t.keys))
  | ingest (p : Nat) (rows : List R) (h : s.procs p = .idle) (hq : Q s (.ingest p rows)) :
      Tr e Q s (setProc { s with clock := s.clock + 1 } p (.stamped (ingestOf rows s.clock)))
  | locked (p : Nat) (t : Txn K R) (h : s.procs p = .locking t []) :
      Tr e Q s (setProc s p (.checking t t.keys))
  | lock (p : Nat) (t : Txn K R) (k : K) (ks : List K) (h : s.procs p = .locking t (k :: ks)) (hl : s.locks k = none) :
      Tr e Q s (setProc { s with locks := fun i => if i = k then some p else s.locks i } p (.locking t ks))
  | clash (p : Nat) (t : Txn K R) (k : K) (ks : List K) (h : s.procs p = .checking t (k :: ks))
      (hc : conflict s k t.snap.rts = true) : Tr e Q s (setProc (release s p) p .idle)
  | clear (p : Nat) (t : Txn K R) (k : K) (ks : List K) (h : s.procs p = .checking t (k :: ks))
      (hc : conflict s k t.snap.rts = false) : Tr e Q s (setProc s p (.checking t ks))
  | stamp (p : Nat) (t : Txn K R) (h : s.procs p = .checking t []) :
      Tr e Q s (setProc { s with clock := s.clock + 1 } p (.stamped (workOf t s.clock)))
  | ident (p : Nat) (w : Work K R) (h : s.procs p = .stamped w) (hw : e.wal = true) :
      Tr e Q s (setProc { s with nextId := s.nextId + 1 } p (.logging w (records w s.nextId)))
  | nowal (p : Nat) (w : Work K R) (h : s.procs p = .stamped w) (hw : e.wal = false) :
      Tr e Q s (setProc s p (.upserts w))
  | logged (p : Nat) (w : Work K R) (h : s.procs p = .logging w []) : Tr e Q s (setProc s p (.upserts w))
  | log (p : Nat) (w : Work K R) (r : Rec K R) (rs : List (Rec K R)) (h : s.procs p = .logging w (r :: rs)) :
      Tr e Q s (setProc { s with log := s.log ++ [r] } p (.logging w rs))
  | upNone (p : Nat) (w : Work K R) (h : s.procs p = .upserts w) (hu : w.ups = none) :
      Tr e Q s (setProc s p (.deletes w))
  | up (p : Nat) (w : Work K R) (rows : List R) (h : s.procs p = .upserts w) (hu : w.ups = some rows)
      (hok : (Lsm.step e.ext e.x e.table s.db (.write (.put (rows.map (fun r => (r, w.ts)))))).1 = true) :
      Tr e Q s (setProc { s with db := (Lsm.step e.ext e.x e.table s.db (.write (.put (rows.map (fun r => (r, w.ts)))))).2,
                                 trace := s.trace ++ [.write (.put (rows.map (fun r => (r, w.ts))))] } p (.deletes w))
  | fail (p : Nat) (w : Work K R) (op : Mem.Op K R) (h : s.procs p = .upserts w ∨ s.procs p = .deletes w)
      (hok : (Lsm.step e.ext e.x e.table s.db (.write op)).1 = false) :
      Tr e Q s (setProc (release { s with db := (Lsm.step e.ext e.x e.table s.db (.write op)).2,
                                          trace := s.trace ++ [.write op], ok := false } p) p .idle)
  | delNone (p : Nat) (w : Work K R) (h : s.procs p = .deletes w) (hd : w.dels = none) :
      Tr e Q s (finishWork s p w)
  | del (p : Nat) (w : Work K R) (keys : List K) (h : s.procs p = .deletes w) (hd : w.dels = some keys)
      (hok : (Lsm.step e.ext e.x e.table s.db (.write (.del (keys.map (fun k => (k, w.ts)))))).1 = true) :
      Tr e Q s (finishWork { s with db := (Lsm.step e.ext e.x e.table s.db (.write (.del (keys.map (fun k => (k, w.ts)))))).2,
                                    trace := s.trace ++ [.write (.del (keys.map (fun k => (k, w.ts))))] } p w)

theorem advance_tr (e : Env K R) (Q : Sys K R → Txn.Op K R → Prop) (s : Sys K R) (p : Nat) : Tr e Q s (advance e s p) := by
  unfold advance
  split
  · exact .locked p _ (by assumption)
  · rename_i t k ks h
    split
    · rename_i hl; exact .lock p t k ks h hl
    · exact .stay
  · exact .stamp p _ (by assumption)
  · rename_i t k ks h
    split
    · rename_i hc; exact .clash p t k ks h hc
    · rename_i hc; exact .clear p t k ks h (by simpa using hc)
  · rename_i w h
    split
    · rename_i hw; exact .ident p w h hw
    · rename_i hw; exact .nowal p w h (by simpa using hw)
  · exact .logged p _ (by assumption)
  · exact .log p _ _ _ (by assumption)
  · rename_i w h
    split
    · rename_i hu; exact .upNone p w h hu
    · rename_i rows hu
      unfold applyCall
      by_cases hok : (Lsm.step e.ext e.x e.table s.db (.write (.put (rows.map (fun r => (r, w.ts)))))).1 = true
      · simp only [hok, if_true]
        exact .up p w rows h hu hok
      · simp only [hok]
        exact .fail p w _ (.inl h) (by simpa using hok)
  · rename_i w h
    split
    · rename_i hd; exact .delNone p w h hd
    · rename_i keys hd
      unfold applyCall
      by_cases hok : (Lsm.step e.ext e.x e.table s.db (.write (.del (keys.map (fun k => (k, w.ts)))))).1 = true
      · simp only [hok, if_true]
        exact .del p w keys h hd hok
      · simp only [hok]
        exact .fail p w _ (.inr h) (by simpa using hok)
  · exact .stay

theorem step_tr (e : Env K R) {Q : Sys K R → Txn.Op K R → Prop} (s : Sys K R) (o : Txn.Op K R) (hq : Q s o) : Tr e Q s (Txn.step e s o) := by
  cases o with
  | lsm o =>
    simp only [Txn.step]
    split
    · rename_i h; exact .bg o h hq
    · exact .stay
  | readVersion p =>
    simp only [Txn.step]
    split
    · rename_i h
      split
      · exact .stay
      · rename_i hv; exact .read p _ _ h hv hq
    · exact .stay
  | openTxn p =>
    simp only [Txn.step]
    split
    · rename_i h; exact .open p _ h hq
    · exact .stay
  | upsert p r =>
    simp only [Txn.step]
    split
    · rename_i t h
      split
      · exact .stay
      · rename_i k hk; exact .stageUp p t r k h hk
    · exact .stay
  | delete p k =>
    simp only [Txn.step]
    split
    · rename_i t h; exact .stageDel p t k h
    · exact .stay
  | abort p =>
    simp only [Txn.step]
    split
    · rename_i t h; exact .quit p t h
    · exact .stay
  | commit p =>
    simp only [Txn.step]
    split
    · rename_i t h
      split
      · exact .quit p t h
      · rename_i hne; exact .call p t h hne
    · exact .stay
  | ingest p rows =>
    simp only [Txn.step]
    split
    · rename_i h; exact .ingest p rows h hq
    · exact .stay
  | advance p => exact advance_tr e Q s p

theorem along_cons {e : Env K R} {Q : Sys K R → Txn.Op K R → Prop} {s : Sys K R} {o : Txn.Op K R}
    {ops : List (Txn.Op K R)} (h : Along e Q s (o :: ops)) : Q s o ∧ Along e Q (Txn.step e s o) ops :=
  ⟨h [] o ops rfl, fun a o' b hb => h (o :: a) o' b (by rw [hb]; rfl)⟩

theorem along_append {e : Env K R} {Q : Sys K R → Txn.Op K R → Prop} {s : Sys K R}
    {a b : List (Txn.Op K R)} (h : Along e Q s (a ++ b)) : Along e Q s a ∧ Along e Q (Txn.run e s a) b := by
  constructor
  · intro x o y hxy
    exact h x o (y ++ b) (by rw [hxy]; simp)
  · intro x o y hxy
    have := h (a ++ x) o y (by rw [hxy]; simp)
    simpa [Txn.run, List.foldl_append] using this

/-- An invariant of all transitions is an invariant of all histories. -/
theorem run_induct {e : Env K R} {Q : Sys K R → Txn.Op K R → Prop} {P : Sys K R → Prop}
    (hs : ∀ s s', P s → Tr e Q s s' → P s') :
    ∀ (ops : List (Txn.Op K R)) (s : Sys K R), Along e Q s ops → P s → P (Txn.run e s ops)
  | [], _, _, h => h
  | o :: ops, s, hq, h => by
    obtain ⟨h1, h2⟩ := along_cons hq
    exact run_induct hs ops _ h2 (hs _ _ h (step_tr e s o h1))

theorem run_append (e : Env K R) (s : Sys K R) (a b : List (Txn.Op K R)) :
    Txn.run e s (a ++ b) = Txn.run e (Txn.run e s a) b := by
  simp [Txn.run, List.foldl_append]

@[simp] theorem setProc_same (s : Sys K R) (p : Nat) (q : Proc K R) : (setProc s p q).procs p = q := by
  simp [setProc]

theorem setProc_other (s : Sys K R) {p i : Nat} (h : i ≠ p) (q : Proc K R) : (setProc s p q).procs i = s.procs i := by
  simp [setProc, h]

end Tonbo.Lemmas.Txn
