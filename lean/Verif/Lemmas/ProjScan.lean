import Verif.Lemmas.ProjPred
import Verif.Lemmas.ProjMerge

/-! Helper lemmas for C61: the scan with columns against the scan of whole rows. -/

namespace Tonbo.Lemmas.Proj
open Tonbo.Model Tonbo.Model.Mem Tonbo.Model.Pred Tonbo.Model.Plan Tonbo.Model.Proj Tonbo.Model.Bounds Tonbo.Spec
open Tonbo.Lemmas.Pred Tonbo.Lemmas.Plan Tonbo.Lemmas.ProjMerge

theorem predCols_mentions (p : Expr) (n : String) : n ∈ predCols p ↔ Mentions p n := by
  rw [predCols_leaves, List.mem_flatMap]
  have hleaf : ∀ (q : Expr), ∀ e ∈ leaves q, isLeaf e = true := by
    intro q
    induction q using Expr.ind with
    | hleaf e he => rw [leaves_leaf he]; intro x hx; rw [List.mem_singleton.1 hx]; exact he
    | htt => rw [leaves]; intro x hx; cases hx
    | hff => rw [leaves]; intro x hx; cases hx
    | hand cs ih =>
      rw [leaves, leavesList_eq]
      intro x hx
      obtain ⟨c, hc, h⟩ := List.mem_flatMap.1 hx
      exact ih c hc x h
    | hor cs ih =>
      rw [leaves, leavesList_eq]
      intro x hx
      obtain ⟨c, hc, h⟩ := List.mem_flatMap.1 hx
      exact ih c hc x h
    | hnot e ih => rw [leaves]; exact ih
  unfold Mentions
  refine exists_congr fun e => and_congr_right fun he => ?_
  have := hleaf p e he
  cases e <;> first | (simp [isLeaf] at this; done) | simp [predCols, leafColumn, eq_comm]

variable {K : Type} [LinearOrder K]

/-! ## Rows that are read -/

theorem memScan_rows {R : Type} {P : R → Prop} {s : Inner K R} (h : ∀ a ∈ s.batches, ∀ r ∈ a.rows, P r)
    {range : Option (Bnd K × Bnd K)} {rts : Nat} {out : List (Mem.Entry K R)} (ho : Mem.scan s range rts = some out) :
    ∀ kt r, Entry.row kt r ∈ out → P r := by
  have key : ∀ (l : List (KT K × Loc)) (cur : Option K) (em : Bool) (out : List (Mem.Entry K R)),
      Mem.scanLoop s rts l cur em = some out → ∀ kt r, Entry.row kt r ∈ out → P r := by
    intro l
    induction l with
    | nil => intro cur em out ho kt r hr; simp only [Mem.scanLoop, Option.some.injEq] at ho; subst ho; cases hr
    | cons q l ih =>
      obtain ⟨kt, loc⟩ := q
      intro cur em out ho
      simp only [Mem.scanLoop] at ho
      split at ho
      · exact ih _ _ _ ho
      · split at ho
        · exact ih _ _ _ ho
        · cases loc with
          | dl b i =>
            simp only at ho
            obtain ⟨o, h1, rfl⟩ := Option.map_eq_some_iff.1 ho
            intro kt' r hr
            rcases List.mem_cons.1 hr with hr | hr
            · cases hr
            · exact ih _ _ _ h1 kt' r hr
          | up b i =>
            simp only at ho
            cases hg : getUp s b i with
            | none => rw [hg] at ho; cases ho
            | some w =>
              rw [hg] at ho
              obtain ⟨o, h1, rfl⟩ := Option.map_eq_some_iff.1 ho
              intro kt' r hr
              rcases List.mem_cons.1 hr with hr | hr
              · cases hr
                unfold getUp at hg
                simp only [Option.bind_eq_bind, Option.bind_eq_some_iff] at hg
                obtain ⟨a, ha, row, hrow, t, _, he⟩ := hg
                cases he
                exact h a (List.mem_of_getElem? ha) _ (List.mem_of_getElem? hrow)
              · exact ih _ _ _ h1 kt' r hr
  unfold Mem.scan at ho
  cases range with
  | none => exact key _ _ _ _ ho
  | some q => exact key _ _ _ _ ho

theorem immScan_rows {R : Type} {P : R → Prop} {m : Imm K R} (h : ∀ r ∈ m.rows, P r)
    {range : Option (Bnd K × Bnd K)} {rts : Nat} {out : List (Mem.Entry K R)} (ho : m.scan range rts = some out) :
    ∀ kt r, Entry.row kt r ∈ out → P r := by
  have key : ∀ (l : List (KT K × Option Nat)) (cur : Option K) (em : Bool) (out : List (Mem.Entry K R)),
      m.scanLoop rts l cur em = some out → ∀ kt r, Entry.row kt r ∈ out → P r := by
    intro l
    induction l with
    | nil => intro cur em out ho kt r hr; simp only [Imm.scanLoop, Option.some.injEq] at ho; subst ho; cases hr
    | cons q l ih =>
      obtain ⟨kt, e⟩ := q
      intro cur em out ho
      simp only [Imm.scanLoop] at ho
      have tomb : ∀ {kt : KT K} {cur em}, (m.scanLoop rts l cur em).map (Entry.tomb kt :: ·) = some out →
          ∀ kt r, Entry.row kt r ∈ out → P r := by
        intro kt cur em ho
        obtain ⟨o, h1, rfl⟩ := Option.map_eq_some_iff.1 ho
        intro kt' r hr
        rcases List.mem_cons.1 hr with hr | hr
        · cases hr
        · exact ih _ _ _ h1 kt' r hr
      split at ho
      · exact ih _ _ _ ho
      · split at ho
        · exact ih _ _ _ ho
        · cases e with
          | none => exact tomb ho
          | some i =>
            simp only at ho
            split at ho
            · split at ho
              · exact ih _ _ _ ho
              · split at ho
                · exact tomb ho
                · cases hr : m.rows[i]? with
                  | none => rw [hr] at ho; cases ho
                  | some row =>
                    rw [hr] at ho
                    obtain ⟨o, h1, rfl⟩ := Option.map_eq_some_iff.1 ho
                    intro kt' r hr'
                    rcases List.mem_cons.1 hr' with hr' | hr'
                    · cases hr'; exact h _ (List.mem_of_getElem? hr)
                    · exact ih _ _ _ h1 kt' r hr'
            · cases ho
  unfold Imm.scan at ho
  cases range with
  | none => exact key _ _ _ _ ho
  | some q =>
    simp only at ho
    split at ho
    · cases ho
    · exact key _ _ _ _ ho

theorem sstScan_rows {R : Type} {P : R → Prop} {f : Sst.File K R} (h : ∀ e ∈ f.data, P e.2) {keep : R → Bool} {rts : Nat}
    {out : List (Mem.Entry K R)} (ho : Model.Sst.scan f keep rts = some out) : ∀ kt r, Entry.row kt r ∈ out → P r := by
  have key : ∀ (n : Nat) (d : List (KT K × R)) (x : List (KT K)) (cur : Option K) (em : Bool)
      (out : List (Mem.Entry K R)), (∀ e ∈ d, P e.2) → Model.Sst.scanLoop n d x cur em = some out →
      ∀ kt r, Entry.row kt r ∈ out → P r := by
    intro n
    induction n with
    | zero => intro d x cur em out _ ho; cases ho
    | succ n ih =>
      intro d x cur em out hd ho
      have emit : ∀ {b : Bool} {e : Mem.Entry K R} {rest : Option (List (Mem.Entry K R))},
          Model.Sst.emitIf b e rest = some out → (∀ kt r, e = .row kt r → P r) →
          (∀ o, rest = some o → ∀ kt r, Entry.row kt r ∈ o → P r) → ∀ kt r, Entry.row kt r ∈ out → P r := by
        intro b e rest ho he hrest
        unfold Model.Sst.emitIf at ho
        split at ho
        · obtain ⟨o, h1, rfl⟩ := Option.map_eq_some_iff.1 ho
          intro kt r hr
          rcases List.mem_cons.1 hr with hr | hr
          · exact he kt r hr.symm
          · exact hrest o h1 kt r hr
        · exact hrest out ho
      cases d with
      | nil =>
        cases x with
        | nil =>
          simp only [Model.Sst.scanLoop, Option.some.injEq] at ho
          subst ho; intro kt r hr; cases hr
        | cons kt x =>
          simp only [Model.Sst.scanLoop] at ho
          exact emit ho (by intro _ _ h; cases h) (fun o h1 => ih _ _ _ _ o hd h1)
      | cons q d =>
        obtain ⟨kt, r⟩ := q
        have hr : P r := hd _ List.mem_cons_self
        have hd' : ∀ e ∈ d, P e.2 := fun e he => hd e (List.mem_cons_of_mem _ he)
        cases x with
        | nil =>
          simp only [Model.Sst.scanLoop] at ho
          exact emit ho (by intro _ _ h; cases h; exact hr) (fun o h1 => ih _ _ _ _ o hd' h1)
        | cons dt x =>
          simp only [Model.Sst.scanLoop] at ho
          split at ho
          · exact emit ho (by intro _ _ h; cases h; exact hr) (fun o h1 => ih _ _ _ _ o hd' h1)
          · split at ho
            · exact emit ho (by intro _ _ h; cases h) (fun o h1 => ih _ _ _ _ o hd h1)
            · split at ho
              · exact emit ho (by intro _ _ h; cases h) (fun o h1 => ih _ _ _ _ o hd' h1)
              · exact emit ho (by intro _ _ h; cases h; exact hr) (fun o h1 => ih _ _ _ _ o hd' h1)
  unfold Model.Sst.scan at ho
  exact key _ _ _ _ _ _ (fun e he => h e (List.mem_filter.1 he).1) ho

/-! ## Opening the sources -/

/-- Rows of a set of streams. -/
def StreamRows (P : Row → Prop) (ss : List (Merge.Prio × List (Mem.Entry K Row))) : Prop :=
  ∀ s ∈ ss, ∀ kt r, Entry.row kt r ∈ s.2 → P r

theorem mapRow_congr {f g : KT K → Row → Row} {P : Row → Prop} (h : ∀ kt r, P r → f kt r = g kt r)
    {l : List (Mem.Entry K Row)} (hl : ∀ kt r, Entry.row kt r ∈ l → P r) : l.map (mapRow f) = l.map (mapRow g) := by
  apply List.map_congr_left
  intro e he
  cases e with
  | row kt r => simp only [mapRow]; rw [h kt r (hl kt r he)]
  | tomb kt => rfl

theorem mapStreams_congr {f g : KT K → Row → Row} {P : Row → Prop} (h : ∀ kt r, P r → f kt r = g kt r)
    {ss : List (Merge.Prio × List (Mem.Entry K Row))} (hss : StreamRows P ss) : mapStreams f ss = mapStreams g ss := by
  apply List.map_congr_left
  intro s hs
  rw [mapRow_congr h (hss s hs)]

theorem streamRows_append {P : Row → Prop} {a b : List (Merge.Prio × List (Mem.Entry K Row))} (ha : StreamRows P a)
    (hb : StreamRows P b) : StreamRows P (a ++ b) := by
  intro s hs
  rcases List.mem_append.1 hs with hs | hs
  · exact ha s hs
  · exact hb s hs

/-- The shape of a table: what the scan with columns relies on. -/
structure Shapes (x : Ext K) (base keys : Schema) (overlay : Option (List (Mem.Entry K Row))) (st : Store K) (p : Expr)
    (rts : Nat) : Prop where
  nodup : (names base).Nodup
  reserved : commitField.1 ∉ names base
  keys : ∀ f ∈ keys, f ∈ base
  cols : ∀ n ∈ predCols p, n ∈ names base
  files : ∀ t ∈ st.levels.flatten, t.schema = base ++ [commitField]
  mem : ∀ a ∈ st.mem.batches, ∀ r ∈ a.rows, r.length = base.length
  imm : ∀ m ∈ st.imms, ∀ r ∈ m.rows, r.length = base.length
  data : ∀ t ∈ st.levels.flatten, ∀ e ∈ x.select p rts t, e.2.length = base.length
  staged : ∀ o, overlay = some o → ∀ kt r, Entry.row kt r ∈ o → r.length = base.length

section Open
variable {x : Ext K} {base keys : Schema} {overlay : Option (List (Mem.Entry K Row))} {st : Store K} {p : Expr} {rts : Nat}

theorem memStream_rows (h : Shapes x base keys overlay st p rts) {pl : ScanPlan K}
    {ss : List (Merge.Prio × List (Mem.Entry K Row))} (hs : memStream st pl rts = some ss) :
    StreamRows (fun r => r.length = base.length) ss := by
  unfold memStream at hs
  split at hs
  · obtain ⟨o, h1, rfl⟩ := Option.map_eq_some_iff.1 hs
    intro s hs'
    rw [List.mem_singleton.1 hs']
    exact memScan_rows h.mem h1
  · cases hs; intro s hs'; cases hs'

theorem mapM_rows {α : Type} {P : Row → Prop} {f : α → Option (Merge.Prio × List (Mem.Entry K Row))} :
    ∀ {l : List α} {ss : List (Merge.Prio × List (Mem.Entry K Row))},
    (∀ a ∈ l, ∀ s, f a = some s → ∀ kt r, Entry.row kt r ∈ s.2 → P r) → l.mapM f = some ss → StreamRows P ss := by
  intro l
  induction l with
  | nil => intro ss _ hs; simp at hs; subst hs; intro s hs'; cases hs'
  | cons a l ih =>
    intro ss h hs
    rw [List.mapM_cons] at hs
    cases ha : f a with
    | none => rw [ha] at hs; cases hs
    | some s =>
      cases hl : l.mapM f with
      | none => rw [ha, hl] at hs; cases hs
      | some t =>
        rw [ha, hl] at hs
        cases hs
        intro u hu
        rcases List.mem_cons.1 hu with rfl | hu
        · exact h a List.mem_cons_self _ ha
        · exact ih (fun b hb => h b (List.mem_cons_of_mem _ hb)) hl u hu

theorem immStreams_rows (h : Shapes x base keys overlay st p rts) {pl : ScanPlan K}
    {ss : List (Merge.Prio × List (Mem.Entry K Row))} (hs : immStreams st pl rts = some ss) :
    StreamRows (fun r => r.length = base.length) ss := by
  refine mapM_rows ?_ hs
  intro m hm s hs' kt r hr
  obtain ⟨i, _, hi⟩ := List.mem_filterMap.1 hm
  obtain ⟨o, h1, rfl⟩ := Option.map_eq_some_iff.1 hs'
  exact immScan_rows (h.imm m (List.mem_of_getElem? hi)) h1 kt r hr

theorem sstStreams_rows (h : Shapes x base keys overlay st p rts) {pl : ScanPlan K}
    (hpl : ∀ t ∈ pl.ssts, t ∈ st.levels.flatten)
    {ss : List (Merge.Prio × List (Mem.Entry K Row))} (hs : sstStreams x pl p rts = some ss) :
    StreamRows (fun r => r.length = base.length) ss := by
  refine mapM_rows ?_ hs
  intro t ht s hs' kt r hr
  obtain ⟨o, h1, rfl⟩ := Option.map_eq_some_iff.1 hs'
  exact sstScan_rows (P := fun r => r.length = base.length) (h.data t (hpl t ht)) h1 kt r hr

theorem openFiles_eq (h : Shapes x base keys overlay st p rts) {scan : Schema} (hs : ∀ f ∈ scan, f ∈ base)
    (pl : ScanPlan K) : ∀ (ts : List (Plan.Sst K)), (∀ t ∈ ts, t ∈ st.levels.flatten) →
    openFiles x keys scan pl p rts ts = .ok ((ts.mapM (fun t => (sstScan x p pl.pushdown rts t).map
      (fun o => (Merge.Prio.sstable, o)))).map (mapStreams (fun _ => columns base (names scan)))) := by
  intro ts
  induction ts with
  | nil => intro _; rfl
  | cons t ts ih =>
    intro hts
    have ht := hts t List.mem_cons_self
    obtain ⟨fields, roots, m, k, _, h2, h3⟩ := sstMap_ok (base := base) (scan := scan) (keys := keys) 
      (fun f hf => List.mem_map_of_mem (hs f hf)) (fun f hf => List.mem_map_of_mem (h.keys f hf))
    rw [openFiles, h.files t ht, h2, ih (fun t ht => hts t (List.mem_cons_of_mem _ ht))]
    simp only
    rw [List.mapM_cons]
    cases ho : sstScan x p pl.pushdown rts t with
    | none => rfl
    | some o =>
      have hrows : ∀ kt r, Entry.row kt r ∈ o → r.length = base.length :=
        sstScan_rows (P := fun r => r.length = base.length) (h.data t ht) ho
      have hmap := mapRow_congr (f := fun kt r => m (stored kt.ts r)) (g := fun _ => columns base (names scan))
        (P := fun r => r.length = base.length) (fun kt r hr => (h3 kt.ts r hr).1) hrows
      cases hts' : ts.mapM (fun t => (sstScan x p pl.pushdown rts t).map (fun o => (Merge.Prio.sstable, o))) with
      | none => rfl
      | some rest =>
        simp [mapStreams, hmap]

/-- The streams of whole rows, with the staged entries of a transaction in front. -/
def wholeStreams (x : Ext K) (overlay : Option (List (Mem.Entry K Row))) (st : Store K) (pl : ScanPlan K) (p : Expr)
    (rts : Nat) : Option (List (Merge.Prio × List (Mem.Entry K Row))) :=
  (streams x st pl p rts).map (fun ss => overlay.toList.map (fun o => (Merge.Prio.txn, o)) ++ ss)

theorem txnMap_ok {scan : Schema} (hn : (names base).Nodup) (hs : ∀ f ∈ scan, f ∈ base) :
    ∃ m, txnMap base scan = .ok m ∧ ∀ r : Row, r.length = base.length → m r = columns base (names scan) r := by
  unfold txnMap
  by_cases h : scan = base
  · rw [if_pos h]
    subst h
    exact ⟨id, rfl, fun r hr => (columns_all scan r hn hr).symm⟩
  · rw [if_neg h]
    obtain ⟨is, h1, h2⟩ := indices_ok (base := base) (target := scan) (fun f hf => List.mem_map_of_mem (hs f hf))
    rw [h1]
    exact ⟨_, rfl, h2⟩

theorem memMap_ok {scan : Schema} (hne : scan ≠ []) (hs : ∀ f ∈ scan, f ∈ base) :
    ∃ m, memMap base scan = .ok m ∧ ∀ r : Row, r.length = base.length → m r = columns base (names scan) r := by
  unfold memMap
  rw [if_neg hne]
  obtain ⟨is, h1, h2⟩ := indices_ok (base := base) (target := scan) (fun f hf => List.mem_map_of_mem (hs f hf))
  rw [h1]
  exact ⟨_, rfl, h2⟩

theorem packMap_ok {scan result : Schema} (hs : ∀ f ∈ result, f.1 ∈ names scan) :
    ∃ m, packMap scan result = .ok m ∧ ∀ r : Row, m (columns base (names scan) r) = columns base (names result) r := by
  unfold packMap
  by_cases h : scan = result
  · rw [if_pos h]
    subst h
    exact ⟨id, rfl, fun r => rfl⟩
  · rw [if_neg h]
    obtain ⟨is, h1, h2⟩ := indices_ok (base := scan) (target := result) hs
    rw [h1]
    refine ⟨_, rfl, fun r => ?_⟩
    rw [h2 _ (by rw [columns_length]; simp)]
    apply columns_columns
    intro n hn
    obtain ⟨f, hf, rfl⟩ := List.mem_map.1 hn
    exact hs f hf

theorem openWith_ok {need : Bool} {m : Row → Row} {cols : Row → Row} {P : Row → Prop} (hm : ∀ r, P r → m r = cols r)
    {ss : Option (List (Merge.Prio × List (Mem.Entry K Row)))} (hrows : ∀ s, ss = some s → StreamRows P s)
    (hneed : need = false → ss = some []) :
    openWith need (.ok m) ss = .ok (ss.map (mapStreams (fun _ => cols))) := by
  unfold openWith
  cases need with
  | false => rw [hneed rfl]; rfl
  | true =>
    simp only [if_true]
    cases ss with
    | none => rfl
    | some s =>
      simp only [Option.map_some]
      rw [mapStreams_congr (f := fun _ => m) (g := fun _ => cols) (fun _ r hr => hm r hr) (hrows s rfl)]

theorem openWith_free {m : Except Proj.Err (Row → Row)} {cols : Row → Row} :
    openWith (K := K) false m (some []) = .ok ((some []).map (mapStreams (fun _ => cols))) := rfl

theorem openAll_eq (h : Shapes x base keys overlay st p rts) {q : Planned K} (hne : q.scan ≠ []) (hs : ∀ f ∈ q.scan, f ∈ base)
    (hpl : ∀ t ∈ q.plan.ssts, t ∈ st.levels.flatten) :
    openAll x base keys overlay st q p rts =
      .ok ((wholeStreams x overlay st q.plan p rts).map (mapStreams (fun _ => columns base (names q.scan)))) := by
  obtain ⟨m1, e1, f1⟩ := txnMap_ok (base := base) h.nodup hs
  obtain ⟨m2, e2, f2⟩ := memMap_ok (base := base) hne hs
  unfold openAll
  rw [e1, e2, openFiles_eq h hs q.plan _ hpl]
  rw [openWith_ok (cols := columns base (names q.scan)) f1
      (by
        intro s hs' t ht kt r hr
        cases hs'
        obtain ⟨o, ho, rfl⟩ := List.mem_map.1 ht
        cases overlay with
        | none => cases ho
        | some o' =>
          simp only [Option.toList_some, List.mem_singleton] at ho
          subst ho
          exact h.staged _ rfl kt r hr)
      (by cases overlay <;> simp),
    openWith_ok (cols := columns base (names q.scan)) f2 (fun s hs' => memStream_rows h hs')
      (by intro hn; unfold memStream; rw [hn]; rfl),
    openWith_ok (cols := columns base (names q.scan)) f2 (fun s hs' => immStreams_rows h hs')
      (by
        intro hn
        unfold immStreams
        have : (q.plan.immIndexes.filterMap (fun i => st.imms[i]?)) = [] := by simpa using hn
        rw [this]; rfl)]
  simp only
  unfold wholeStreams streams sstStreams
  cases memStream st q.plan rts with
  | none => rfl
  | some a =>
    cases immStreams st q.plan rts with
    | none => rfl
    | some b =>
      cases q.plan.ssts.mapM (fun t => (sstScan x p q.plan.pushdown rts t).map (fun o => (Merge.Prio.sstable, o))) with
      | none => rfl
      | some c => simp [mapStreams]

theorem wholeStreams_rows (h : Shapes x base keys overlay st p rts) {pl : ScanPlan K}
    (hpl : ∀ t ∈ pl.ssts, t ∈ st.levels.flatten) {ss : List (Merge.Prio × List (Mem.Entry K Row))}
    (hs : wholeStreams x overlay st pl p rts = some ss) : StreamRows (fun r => r.length = base.length) ss := by
  unfold wholeStreams streams at hs
  obtain ⟨t, ht, rfl⟩ := Option.map_eq_some_iff.1 hs
  obtain ⟨a, ha, ht⟩ := Option.bind_eq_some_iff.1 ht
  obtain ⟨b, hb, ht⟩ := Option.bind_eq_some_iff.1 ht
  obtain ⟨c, hc, rfl⟩ := Option.map_eq_some_iff.1 ht
  refine streamRows_append ?_ (streamRows_append (streamRows_append (memStream_rows h ha) (immStreams_rows h hb))
    (sstStreams_rows h hpl hc))
  intro s hs' kt r hr
  obtain ⟨o, ho, rfl⟩ := List.mem_map.1 hs'
  cases overlay with
  | none => cases ho
  | some o' =>
    simp only [Option.toList_some, List.mem_singleton] at ho
    subst ho
    exact h.staged _ rfl kt r hr

/-! ## The scan -/

/-- A scan of whole rows, cut down at the end. -/
def wholeScan {Q : Type} (x : Ext K) (c : Codec K) (base keys : Schema) (overlay : Option (List (Mem.Entry K Row))) (st : Store K)
    (p : Expr) (rts : Nat) (g : Row → Q) (batchSize : Nat) (limit : Option Nat) :
    Except Proj.Err (Option (List (List Q) × Option EvalErr)) :=
  match Plan.plan x c base keys overlay.isSome st p rts with
  | .error e => .error (.bloom e)
  | .ok pl => .ok ((wholeStreams x overlay st pl p rts).bind (fun ss =>
      Package.scanStreams (pl.residual.map (fun q => matchesOwned x.pc base q)) g batchSize limit
        (ss.map (fun s => (s.1, s.2.map some)))))

theorem filesOk_true (h : Shapes x base keys overlay st p rts) {scan : Schema} (hs : ∀ f ∈ scan, f ∈ base)
    {ts : List (Plan.Sst K)} (hts : ∀ t ∈ ts, t ∈ st.levels.flatten) : filesOk keys scan ts = true := by
  unfold filesOk
  rw [List.all_eq_true]
  intro t ht
  obtain ⟨fields, roots, m, k, h1, _, _⟩ := sstMap_ok (base := base) (scan := scan) (keys := keys) 
    (fun f hf => List.mem_map_of_mem (hs f hf)) (fun f hf => List.mem_map_of_mem (h.keys f hf))
  rw [h.files t (hts t ht), h1]

theorem plan_ssts {c : Codec K} {schema : Schema} {force : Bool} {pl : ScanPlan K}
    (hp : Plan.plan x c schema keys force st p rts = .ok pl) :
    (∀ t ∈ pl.ssts, t ∈ st.levels.flatten) ∧ ∀ q, pl.residual = some q → ∀ n ∈ predCols q, n ∈ predCols p := by
  unfold Plan.plan at hp
  split at hp
  · cases hp
  · cases hp
    exact ⟨fun t ht => (List.mem_filter.1 ht).1, fun q hq => residual_cols hq⟩

theorem scan_eq (c : Codec K) (h : Shapes x base keys overlay st p rts) (proj : Option Schema)
    (hproj : ∀ f ∈ proj.getD base, f ∈ base) (hne : proj.getD base ≠ []) (bs : Nat) (lim : Option Nat) :
    Proj.scan x c base keys overlay st p rts proj bs lim =
      wholeScan x c base keys overlay st p rts (columns base (names (proj.getD base))) bs lim := by
  unfold Proj.scan Proj.plan wholeScan
  cases hb : findBloom p with
  | some col => simp only [Plan.plan, hb]
  | none =>
    simp only
    obtain ⟨wide, h1, h2, h3, h4, _, h6⟩ := extend_ok (base := base) (proj := proj.getD base) (required := predCols p) hproj h.cols
    rw [h1]
    simp only
    rw [plan_congr x c keys overlay.isSome st p rts
      (fun n hn => columnType_sub h.nodup h2 (h4 n hn))]
    cases hp : Plan.plan x c base keys overlay.isSome st p rts with
    | error e => rfl
    | ok pl =>
      obtain ⟨g1, g2⟩ := plan_ssts hp
      simp only
      have hscan : ∀ f ∈ (if overlay.isSome || pl.residual.isSome then wide else proj.getD base), f ∈ base := by
        split
        · exact h2
        · exact hproj
      have hscanne : (if overlay.isSome || pl.residual.isSome then wide else proj.getD base) ≠ [] := by
        split
        · exact h6 hne
        · exact hne
      have hres : ∀ f ∈ proj.getD base, f.1 ∈ names (if overlay.isSome || pl.residual.isSome then wide else proj.getD base) := by
        split
        · exact h3
        · exact fun f hf => List.mem_map_of_mem hf
      have hcols : ∀ q, pl.residual = some q → ∀ n ∈ predCols q,
          n ∈ names (if overlay.isSome || pl.residual.isSome then wide else proj.getD base) := by
        intro q hq n hn
        rw [if_pos (by simp [hq])]
        exact h4 n (g2 q hq n hn)
      generalize (if overlay.isSome || pl.residual.isSome then wide else proj.getD base) = scan at hscan hscanne hres hcols
      rw [filesOk_true h h2 (fun t ht => (List.mem_filter.1 ht).1), filesOk_true h hscan g1]
      simp only [Bool.and_self, if_true]
      rw [openAll_eq h hscanne hscan g1]
      obtain ⟨m, p1, p2⟩ := packMap_ok (base := base) hres
      cases hw : wholeStreams x overlay st pl p rts with
      | none => rfl
      | some ss =>
        have hrows := wholeStreams_rows h g1 hw
        cases ss with
        | nil => rfl
        | cons s ss =>
          have hmap : ((mapStreams (fun _ => columns base (names scan)) (s :: ss)).map (fun s => (s.1, s.2.map some))) =
              mapS (columns base (names scan)) ((s :: ss).map (fun s => (s.1, s.2.map some))) := by
            simp only [mapStreams, mapS, mapP, List.map_map]
            apply List.map_congr_left
            intro t _
            simp only [Function.comp_apply, List.map_map, Prod.mk.injEq, true_and]
            apply List.map_congr_left
            intro e _
            cases e <;> rfl
          simp only [Option.map_some, mapStreams, List.map_cons] at hmap ⊢
          rw [p1]
          simp only
          congr 1
          rw [Option.bind_some, hmap]
          refine Eq.trans (scanStreams_map (columns base (names scan)) _ _ _ _ ((s :: ss).map (fun s => (s.1, s.2.map some)))) ?_
          refine scanStreams_congr (fun r => r.length = base.length) _ _ _ _ _ _ _ ?_ ?_ ?_ ?_
          · intro t ht kt r hr
            obtain ⟨u, hu, rfl⟩ := List.mem_map.1 ht
            obtain ⟨e, he, hee⟩ := List.mem_map.1 hr
            cases hee
            exact hrows u hu kt r he
          · cases pl.residual <;> rfl
          · intro v v' hv hv' r hr
            cases hq : pl.residual with
            | none => rw [hq] at hv; cases hv
            | some q =>
              rw [hq] at hv hv'
              cases hv; cases hv'
              exact matches_columns x.pc h.nodup hr hscan q (hcols q hq)
          · intro r _
            exact p2 r

end Open

/-! ## Rows that were written -/

theorem seal_rows {R : Type} {P : R → Prop} {ext : R → Option K} {s s' : Inner K R} {o : Option (Imm K R)}
    (h : ∀ a ∈ s.batches, ∀ r ∈ a.rows, P r) (hs : sealInner ext s = (.ok o, s')) :
    (∀ a ∈ s'.batches, ∀ r ∈ a.rows, P r) ∧ ∀ m, o = some m → ∀ r ∈ m.rows, P r := by
  have pass : ∀ (l : List (KT K × Loc)) (a b : SealAcc K R), (∀ r ∈ a.rows, P r) → sealPass1 s l a = some b → ∀ r ∈ b.rows, P r := by
    intro l
    induction l with
    | nil => intro a b ha hb; simp only [sealPass1, Option.some.injEq] at hb; subst hb; exact ha
    | cons q l ih =>
      obtain ⟨kt, loc⟩ := q
      intro a b ha hb
      cases loc with
      | up i j =>
        simp only [sealPass1] at hb
        cases hg : getUp s i j with
        | none => rw [hg] at hb; cases hb
        | some w =>
          rw [hg] at hb
          refine ih _ b ?_ hb
          intro r hr
          rcases List.mem_append.1 hr with hr | hr
          · exact ha r hr
          · rw [List.mem_singleton.1 hr]
            unfold getUp at hg
            simp only [Option.bind_eq_bind, Option.bind_eq_some_iff] at hg
            obtain ⟨a, ha, row, hrow, t, _, he⟩ := hg
            cases he
            exact h a (List.mem_of_getElem? ha) _ (List.mem_of_getElem? hrow)
      | dl i j =>
        simp only [sealPass1] at hb
        cases hg : getDl s i j with
        | none => rw [hg] at hb; cases hb
        | some w => rw [hg] at hb; exact ih { a with dkeys := a.dkeys ++ [w.1], dts := a.dts ++ [w.2], meta_ := a.meta_ ++ [(kt.ts, false)] } b ha hb
  unfold sealInner at hs
  split at hs
  · cases hs; exact ⟨h, fun m hm => by cases hm⟩
  · cases hp : sealPass1 s s.index ⟨[], [], [], [], []⟩ with
    | none => rw [hp] at hs; cases hs
    | some a =>
      rw [hp] at hs
      simp only at hs
      cases hk : a.rows.mapM ext with
      | none => rw [hk] at hs; cases hs
      | some uk =>
        rw [hk] at hs
        simp only at hs
        cases h2 : sealPass2 uk a.dkeys a.meta_ 0 0 [] with
        | none => rw [h2] at hs; cases hs
        | some ix =>
          rw [h2] at hs
          cases hs
          exact ⟨(fun _ ha => by cases ha), fun m hm => by cases hm; exact pass _ _ _ (by simp) hp⟩

theorem insert_rows {R : Type} {P : R → Prop} {ext : R → Option K} {s s' : Inner K R} {rows : List R} {ts : List Nat}
    (h : ∀ a ∈ s.batches, ∀ r ∈ a.rows, P r) (hr : ∀ r ∈ rows, P r) (hs : tryInsertBatch ext s rows ts = .ok s') :
    ∀ a ∈ s'.batches, ∀ r ∈ a.rows, P r := by
  unfold tryInsertBatch at hs
  split at hs
  · cases hs
  · simp only at hs
    cases hk : rows.mapM ext with
    | none => rw [hk] at hs; cases hs
    | some ks =>
      rw [hk] at hs
      cases hs
      intro a ha
      rcases List.mem_append.1 ha with ha | ha
      · exact h a ha
      · rw [List.mem_singleton.1 ha]; exact hr

theorem delete_rows {R : Type} {s s' : Inner K R} {b : List (Option K × Option Nat)} (hs : tryInsertDelete s b = .ok s') :
    s'.batches = s.batches := by
  unfold tryInsertDelete at hs
  repeat' split at hs
  all_goals first | (cases hs; done) | (cases hs; rfl)

/-- Every row in memory was written. -/
theorem calls_rows {R : Type} {P : R → Prop} {ext : R → Option K} : ∀ (ops : List (Op K R)) (t t' : Runs K R),
    (∀ a ∈ t.mem.batches, ∀ r ∈ a.rows, P r) → (∀ m ∈ t.runs, ∀ r ∈ m.rows, P r) →
    (∀ rows, Op.put rows ∈ ops → ∀ q ∈ rows, P q.1) → t.calls ext ops = (true, t') →
    (∀ a ∈ t'.mem.batches, ∀ r ∈ a.rows, P r) ∧ ∀ m ∈ t'.runs, ∀ r ∈ m.rows, P r := by
  intro ops
  induction ops with
  | nil => intro t t' h1 h2 _ ht; cases ht; exact ⟨h1, h2⟩
  | cons op ops ih =>
    intro t t' h1 h2 hop ht
    simp only [Runs.calls, Prod.mk.injEq, Bool.and_eq_true] at ht
    obtain ⟨⟨hc, hcs⟩, hst⟩ := ht
    have hstep : (∀ a ∈ (t.call ext op).2.mem.batches, ∀ r ∈ a.rows, P r) ∧ ∀ m ∈ (t.call ext op).2.runs, ∀ r ∈ m.rows, P r := by
      have fin : ∀ (o : Option (Imm K R)) (m : Inner K R), memCall ext t.mem op = (.ok o, m) →
          ((∀ a ∈ m.batches, ∀ r ∈ a.rows, P r) ∧ ∀ x, o = some x → ∀ r ∈ x.rows, P r) →
          (∀ a ∈ (t.call ext op).2.mem.batches, ∀ r ∈ a.rows, P r) ∧ ∀ m ∈ (t.call ext op).2.runs, ∀ r ∈ m.rows, P r := by
        intro o m hm hr
        simp only [Runs.call, hm]
        refine ⟨hr.1, ?_⟩
        intro x hx
        cases o with
        | none => exact h2 x hx
        | some y =>
          rcases List.mem_append.1 hx with hx | hx
          · exact h2 x hx
          · rw [List.mem_singleton.1 hx]; exact hr.2 y rfl
      rcases hm : memCall ext t.mem op with ⟨o, m⟩
      cases o with
      | error e => simp only [Runs.call, hm, Bool.false_eq_true] at hc
      | ok o =>
        refine fin o m hm ?_
        cases op with
        | freeze => exact seal_rows h1 hm
        | put rows =>
          have hrows : ∀ r ∈ rows.map (·.1), P r := by
            intro r hr
            obtain ⟨q, hq, rfl⟩ := List.mem_map.1 hr
            exact hop rows List.mem_cons_self q hq
          simp only [memCall, insertBatchMvcc] at hm
          split at hm
          · cases hm
          · split at hm
            · cases hm
            · split at hm
              · rename_i hi; cases hm
                exact ⟨insert_rows h1 hrows hi, fun x hx => by cases hx⟩
              · cases hm
              · split at hm
                · cases hm
                · rename_i hseal
                  obtain ⟨g1, g2⟩ := seal_rows h1 hseal
                  split at hm
                  · rename_i hi; cases hm
                    exact ⟨insert_rows g1 hrows hi, g2⟩
                  · cases hm
                  · cases hm
        | del keys =>
          simp only [memCall, insertDeleteBatch] at hm
          split at hm
          · rename_i hi; cases hm
            exact ⟨by rw [delete_rows hi]; exact h1, fun x hx => by cases hx⟩
          · cases hm
          · split at hm
            · cases hm
            · rename_i hseal
              obtain ⟨g1, g2⟩ := seal_rows h1 hseal
              split at hm
              · rename_i hi; cases hm
                exact ⟨by rw [delete_rows hi]; exact g1, g2⟩
              · cases hm
              · cases hm
    exact ih _ t' hstep.1 hstep.2 (fun rows hr => hop rows (List.mem_cons_of_mem _ hr)) (by rw [← hcs, ← hst])

/-! ## Which errors -/

theorem indices_err {base target : Schema} {e : Proj.Err} (h : Proj.indices base target = .error e) (col : String) :
    e ≠ .bloom col := by
  unfold Proj.indices at h
  split at h
  · cases h
  · cases h; intro h; cases h

theorem memMap_err {base scan : Schema} {e : Proj.Err} (h : Proj.memMap base scan = .error e) (col : String) :
    e ≠ .bloom col := by
  unfold Proj.memMap at h
  split at h
  · cases h; intro h; cases h
  · split at h
    · next hi => cases h; exact indices_err hi col
    · cases h

theorem txnMap_err {base scan : Schema} {e : Proj.Err} (h : Proj.txnMap base scan = .error e) (col : String) :
    e ≠ .bloom col := by
  unfold Proj.txnMap at h
  split at h
  · cases h
  · split at h
    · next hi => cases h; exact indices_err hi col
    · cases h

theorem packMap_err {base scan : Schema} {e : Proj.Err} (h : Proj.packMap base scan = .error e) (col : String) :
    e ≠ .bloom col := by
  unfold Proj.packMap at h
  split at h
  · cases h
  · split at h
    · next hi => cases h; exact indices_err hi col
    · cases h

theorem sstMap_err {file scan keys : Schema} {e : Proj.Err} (h : Proj.sstMap file scan keys = .error e) (col : String) :
    e ≠ .bloom col := by
  unfold Proj.sstMap at h
  split at h
  · next hi =>
    cases h
    unfold Proj.sstProjection at hi
    simp only at hi
    split at hi
    · cases hi
    · cases hi; intro h; cases h
  · split at h
    · cases h
    · cases h; intro h; cases h

theorem openWith_err {need : Bool} {m : Except Proj.Err (Row → Row)} {ss : Option (List (Merge.Prio × List (Entry K Row)))}
    {e : Proj.Err} (h : Proj.openWith need m ss = .error e) : m = .error e := by
  unfold Proj.openWith at h
  split at h
  · split at h
    · cases h; rfl
    · cases h
  · cases h

theorem openFiles_err {x : Plan.Ext K} {keys scan : Schema} {pl : Plan.ScanPlan K} {p : Expr} {rts : Nat} {e : Proj.Err}
    (col : String) : ∀ {ts : List (Plan.Sst K)}, Proj.openFiles x keys scan pl p rts ts = .error e → e ≠ .bloom col
  | [], h => by cases h
  | t :: ts, h => by
    rw [Proj.openFiles] at h
    split at h
    · cases h
    · next hi => cases h; exact sstMap_err hi col
    · next hi _ => cases h; exact openFiles_err col hi

theorem openAll_err {x : Plan.Ext K} {base keys : Schema} {overlay : Option (List (Entry K Row))} {st : Plan.Store K}
    {q : Proj.Planned K} {p : Expr} {rts : Nat} {e : Proj.Err} (col : String)
    (h : Proj.openAll x base keys overlay st q p rts = .error e) : e ≠ .bloom col := by
  unfold Proj.openAll at h
  split at h
  · cases h
  · next hi => cases h; exact txnMap_err (openWith_err hi) col
  · next hi _ => cases h; exact memMap_err (openWith_err hi) col
  · next hi _ _ => cases h; exact memMap_err (openWith_err hi) col
  · next hi _ _ _ => cases h; exact openFiles_err col hi

theorem plan_err {x : Plan.Ext K} {c : Plan.Codec K} {base keys : Schema} {force : Bool} {st : Plan.Store K}
    {p : Expr} {rts : Nat} {proj : Option Schema} {e : Proj.Err} (hb : findBloom p = none) (col : String)
    (h : Proj.plan x c base keys force st p rts proj = .error e) : e ≠ .bloom col := by
  unfold Proj.plan at h
  rw [hb] at h
  simp only at h
  split at h
  · next hi =>
    cases h
    unfold Proj.extend at hi
    split at hi
    · cases hi
    · split at hi
      · cases hi
      · cases hi; intro h; cases h
  · split at h
    · next hi =>
      unfold Plan.plan at hi
      rw [hb] at hi
      cases hi
    · have key : ∀ (b : Bool) (v : Proj.Planned K), (if b then Except.ok v else Except.error Proj.Err.noSuchField) =
          (Except.error e : Except Proj.Err (Proj.Planned K)) → e ≠ .bloom col := by
        intro b v h
        cases b
        · cases h; intro h; cases h
        · cases h
      exact key _ _ h

end Tonbo.Lemmas.Proj
