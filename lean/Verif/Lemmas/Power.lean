import Verif.Spec.PowerView
import Verif.Lemmas.DurableClock

/-!
# Losing files that nothing lists
-/

namespace Tonbo.Lemmas.Power
open Tonbo.Model Tonbo.Model.Manifest Tonbo.Model.Lsm Tonbo.Model.Planner Tonbo.Model.Power Tonbo.Spec Tonbo.Spec.Durable Tonbo.Spec.Power
open Tonbo.Lemmas.Lsm Tonbo.Lemmas.Durable
open Tonbo.Model.Sst (File)

variable {A K R : Type} [LinearOrder K]

theorem pendings_nil {db : Db K R} (hj : db.jobs = []) (hf : db.flushing = .idle) : pendings db = [] := by
  unfold pendings
  rw [hj, hf]
  rfl

theorem inv_files {ext : R → Option K} {x : Exec K R} {t n : Nat} {db : Db K R} (h : Inv ext x t n db)
    (files : Path → Option (File K R)) (hj : db.jobs = []) (hf : db.flushing = .idle)
    (hs : ∀ l e, Lst db.kv t l e → files ⟨l, e.id⟩ = db.files ⟨l, e.id⟩) :
    Inv ext x t n { db with files := files } := by
  have hp : pendings { db with files := files } = [] := pendings_nil hj hf
  refine ⟨h.good, h.reg, h.mem, fun l e he => entryOk_mono (h.ent l e he) (hs l e he) (le_refl _), h.uniq, h.top, ?_, ?_,
    h.flush, ?_, h.gc⟩
  · rw [hp]; intro p hp; cases hp
  · unfold pendIds; rw [hp]; exact List.nodup_nil
  · intro p hp
    simp only [hj] at hp
    cases hp

theorem cont_files {ext : R → Option K} {t n : Nat} {db : Db K R} {log : List (Ver K R)} {ex : Prop}
    {logs : List (List (Ver K R))} {cur : List (Ver K R)} (h : Cont ext t n db log ex logs cur)
    (files : Path → Option (File K R)) (hj : db.jobs = []) (hf : db.flushing = .idle)
    (hs : ∀ l e, Lst db.kv t l e → files ⟨l, e.id⟩ = db.files ⟨l, e.id⟩) :
    Cont ext t n { db with files := files } log ex logs cur := by
  have hp : pendings { db with files := files } = [] := pendings_nil hj hf
  refine ⟨h.runs, h.mem, h.sub, ?_, h.done, ?_, ?_, ?_⟩
  · intro p k hk
    simp only [hf] at hk
    cases hk
  · intro l e he f hfl
    rw [show ({ db with files := files } : Db K R).files ⟨l, e.id⟩ = files ⟨l, e.id⟩ from rfl, hs l e he] at hfl
    exact h.listed l e he f hfl
  · rw [hp]; intro p hp; cases hp
  · intro w hw
    obtain ⟨u, hu, rest⟩ := h.cover w hw
    refine ⟨u, ?_, rest⟩
    rcases hu with hu | hu | ⟨v, l, e, f, a1, a2, a3, a4⟩
    · exact .inl hu
    · exact .inr (.inl hu)
    · exact .inr (.inr ⟨v, l, e, f, a1, a2, by simp only; rw [hs l e ⟨n, v, a1, a2⟩]; exact a3, a4⟩)

theorem d_files {c : Durable.Ctx A K R} {s : Durable.Sys A K R} {n : Nat} {log : List (Ver K R)}
    {logs : List (List (Ver K R))} {cur : List (Ver K R)} (h : D c s n log logs cur)
    (files : Path → Option (File K R)) (hj : s.db.jobs = []) (hf : s.db.flushing = .idle) (hw : s.writers = [])
    (hs : ∀ l e, Lst s.db.kv c.table l e → files ⟨l, e.id⟩ = s.db.files ⟨l, e.id⟩) :
    D c (withFiles s files) n log logs cur := by
  refine ⟨h.open_, inv_files h.inv files hj hf hs, cont_files h.cont files hj hf hs, h.acked, h.sub, h.fine, h.len,
    ⟨h.lg.ne, h.lg.asc, h.lg.next, h.lg.frame1, h.lg.ord, h.lg.lt, h.lg.good⟩, h.refs, h.one, ?_, h.safe, ?_⟩
  · intro w hw'
    have : w ∈ s.writers := hw'
    rw [hw] at this
    cases this
  · intro p k hk
    have : s.db.flushing = .written p k := hk
    rw [hf] at this
    cases this

/-- A database that has just been opened. -/
theorem crash_fresh (c : Durable.Ctx A K R) (s : Durable.Sys A K R) (cap : Nat) (pol : Nat → Bool) (st : Option Wal.WState)
    (h : (Durable.crash c s cap pol st).dead = false) (hd : s.dead = false) :
    (Durable.crash c s cap pol st).db.jobs = [] ∧ (Durable.crash c s cap pol st).db.flushing = .idle ∧
    (Durable.crash c s cap pol st).writers = [] ∧ (Durable.crash c s cap pol st).db.kv = s.db.kv ∧
    (Durable.crash c s cap pol st).db.files = s.db.files := by
  unfold Durable.crash at h ⊢
  unfold Lsm.reopen at h ⊢
  cases ha : allocator s.db.kv c.table with
  | error e => rw [ha] at h; cases h
  | ok k =>
    rw [ha] at h
    simp only at h ⊢
    cases hr : Wal.replay c.ext c.sch pol (Mem.Runs.new cap) (Durable.replayed (Durable.floorOf c s) s.segs) with
    | none => rw [hr] at h; cases h
    | some r => exact ⟨rfl, rfl, rfl, rfl, rfl⟩

theorem lucky_run {c : Durable.Ctx A K R} (hx : 0 < c.x.readRows) : ∀ (ops : List (Power.Op K R)) (s : St A K R),
    Ck c s.sys → (∃ n log logs cur, D c s.sys n log logs cur) → Lucky c s ops →
    Ck c (Power.run c s ops).sys ∧ ∃ n log logs cur, D c (Power.run c s ops).sys n log logs cur
  | [], _, hc, hd, _ => ⟨hc, hd⟩
  | o :: ops, s, hc, ⟨n, log, logs, cur, hd⟩, hl => by
    obtain ⟨h1, h2⟩ := hl
    have next : Ck c (Power.step c s o).sys ∧ ∃ n log logs cur, D c (Power.step c s o).sys n log logs cur := by
      cases o with
      | live o => exact ⟨ck_step hc o h1.1 h1.2, d_step hd hx o h1.1 hc.fn⟩
      | writeback p => exact ⟨hc, n, log, logs, cur, hd⟩
      | power cap pol st =>
        obtain ⟨w, k1, k2⟩ := h1
        have hck := ck_step hc (.crash cap pol st) k1 k2
        obtain ⟨n', log', logs', cur', hd'⟩ := d_step hd hx (.crash cap pol st) k1 hc.fn
        have hstep : Durable.step c s.sys (.crash cap pol st) = Durable.crash c s.sys cap pol st := by
          unfold Durable.step
          rw [hd.open_]
          rfl
        have hopen := hd'.open_
        rw [hstep] at hck hd' hopen
        obtain ⟨f1, f2, f3, f4, f5⟩ := crash_fresh c s.sys cap pol st hopen hd.open_
        simp only [Power.step]
        rw [hstep]
        refine ⟨ck_same hck rfl rfl rfl, n', log', logs', cur', d_files hd' s.device f1 f2 f3 ?_⟩
        intro l e he
        rw [f4] at he
        rw [f5]
        obtain ⟨k, v, a1, a2⟩ := he
        exact w l e ⟨k, v, published_iff.2 a1, a2⟩
    exact lucky_run hx ops _ next.1 next.2 h2

end Tonbo.Lemmas.Power
