import Verif.AD.Packing
import Verif.Properties.Structure
/-!
# The Jacobian of the stacked objective (`ChInputsStacked.dr_wrt` and `J`, optimization_internal.py:34-71, 100-108)
-/
namespace Chumpy
open scoped BigOperators

/-- `new_jac[:, idxs]` (optimization_internal.py:43-48).  Numbers do not occur: `dr_wrt` returns matrices. -/
noncomputable def Jac.cols (idxs : List ℕ) : Jac → Except Err Jac
  | .num _ => .error (.user 1)
  | .dense m n e => if ∀ k ∈ idxs, k < n then .ok (.dense m idxs.length fun i j => e i (idxs.getD j 0)) else .error (.user 1)
  | .sparse m n e => if ∀ k ∈ idxs, k < n then .ok (.sparse m idxs.length fun i j => e i (idxs.getD j 0)) else .error (.user 1)

/-- Number of rows, number of columns, entries. -/
noncomputable def Jac.block : Jac → ℕ × ℕ × Ent
  | .num c => (1, 1, fun _ _ => c)
  | .dense m n e => (m, n, e)
  | .sparse m n e => (m, n, e)

/-- `sp.issparse`. -/
def Jac.isSparse : Jac → Bool
  | .sparse _ _ _ => true
  | _ => false

/-- Matrices side by side. -/
noncomputable def sideBySide : List (ℕ × ℕ × Ent) → Ent
  | [] => 0
  | d :: ds => fun i j => if j < d.2.1 then d.2.2 i j else sideBySide ds i (j - d.2.1)

/-- `hstack` (optimization_internal.py:18-20): sparse if one of them is; a `ValueError` if the numbers of rows differ or the list is
empty. -/
noncomputable def Jac.hstack (ds : List Jac) : Except Err Jac :=
  match ds.map Jac.block with
  | [] => .error (.user 1)
  | d :: rest =>
    if ∀ x ∈ rest, x.1 = d.1 then
      .ok (if ds.any Jac.isSparse then .sparse d.1 (((d :: rest).map fun x => x.2.1).sum) (sideBySide (d :: rest))
        else .dense d.1 (((d :: rest).map fun x => x.2.1).sum) (sideBySide (d :: rest)))
    else .error (.user 1)

open Classical in
/-- The loop of `ChInputsStacked.dr_wrt` (optimization_internal.py:40-65); `md`, `ms` are `make_dense` and `make_sparse` of the stacked
objective.  For a slice whose derivative is `None`, `None[:, idxs]` and then `None.tocsc()` raise; otherwise the `Exception` of lines 60-63
is raised. -/
noncomputable def freeJacs (f : ℕ) (md ms : Bool) (o : Id) : List Id → M ClassDef Par Arr Jac (List Jac)
  | [] => M.pure []
  | fv :: fvs => fun h =>
    if (h.graph fv).cls = chSelect then
      match (h.graph fv).dterms nmA, (h.graph fv).terms nmP with
      | some a, some (.nats idxs) =>
        M.bind (drWrt lib f o a) (fun d => M.bind (match d with
          | none => M.throw .attr
          | some d => M.lift (d.cols idxs)) fun d => M.bind (freeJacs f md ms o fvs) fun ds => M.pure (d.outForm md ms :: ds)) h
      | _, _ => (h, .error .attr)
    else
      M.bind (drWrt lib f o fv) (fun d => M.bind (match d with
        | none => M.throw (.user 2)
        | some d => M.pure d) fun d => M.bind (freeJacs f md ms o fvs) fun ds => M.pure (d.outForm md ms :: ds)) h

/-- `clear_cache_single` on each object of the list (optimization_internal.py:10-13).  `dr_cached` is the memo of `AD/Memo.lean`, which is
not part of the heap. -/
def dropDrs (S : List Id) (h : Heap ClassDef Par Arr Jac) : Heap ClassDef Par Arr Jac :=
  { h with node := fun j => if j ∈ S then { h.node j with drs := fun _ => none } else h.node j }

/-- `ChInputsStacked.J`, i.e. `dr_wrt(self.x)` (optimization_internal.py:34-71, 100-108): the loop, the clearing of derivative caches of all
objects under the objective (`dfs_do_func_on_graph`, utils.py:36-41), `hstack`.  Unlike other `dr_wrt`s it does not call `on_changed`. -/
noncomputable def stackedJ (f : ℕ) (md ms : Bool) (y : Id) (fvs : List Id) : M ClassDef Par Arr Jac Jac := fun h =>
  match (h.graph y).dterms nmObj with
  | none => (h, .error .attr)
  | some o => M.bind (freeJacs f md ms o fvs) (fun ds => fun h =>
      match treeIter h.graph f o [] with
      | none => (h, .error .fuel)
      | some (_, out) => (dropDrs out h, Jac.hstack ds)) h

/-! ## The state afterwards -/

theorem dropDrs_graph (S : List Id) (h : Heap ClassDef Par Arr Jac) : (dropDrs S h).graph = h.graph := by
  funext j
  simp only [Heap.graph, dropDrs]
  split <;> rfl

theorem dropDrs_inv {m : Mode} {h : Heap ClassDef Par Arr Jac} (hs : Inv lib m h) (S : List Id) : Inv lib m (dropDrs S h) := by
  have hg := dropDrs_graph S h
  have hn : ∀ j, ((dropDrs S h).node j).parents = (h.node j).parents ∧ ((dropDrs S h).node j).alive = (h.node j).alive ∧
      ((dropDrs S h).node j).itr = (h.node j).itr ∧ ((dropDrs S h).node j).cacheR = (h.node j).cacheR ∧
      ((dropDrs S h).node j).props = (h.node j).props ∧ ((dropDrs S h).node j).toGNode = (h.node j).toGNode ∧
      ∀ w d, ((dropDrs S h).node j).drs w = some d → (h.node j).drs w = some d := by
    intro j
    simp only [dropDrs]
    split
    · exact ⟨rfl, rfl, rfl, rfl, rfl, rfl, fun w d hd => by cases hd⟩
    · exact ⟨rfl, rfl, rfl, rfl, rfl, rfl, fun w d hd => hd⟩
  have hgn : ∀ j, (dropDrs S h).graph j = h.graph j := fun j => by rw [hg]
  have hp : (dropDrs S h).par = h.par := by funext j; exact (hn j).1
  have hdt : ∀ j k, ((dropDrs S h).node j).dterms k = (h.node j).dterms k := fun j k => by
    have := congrArg (fun n : GNode ClassDef Par => n.dterms k) (hn j).2.2.2.2.2.1
    exact this
  have hdn : ∀ j, ((dropDrs S h).node j).dnames = (h.node j).dnames := fun j => congrArg (fun n : GNode ClassDef Par => n.dnames) (hn j).2.2.2.2.2.1
  refine ⟨⟨?_, fun n ha => ?_, fun n hle => ?_, fun q k c hk => ?_, fun i w d hd => ?_, fun n t ht => ?_⟩, ⟨fun i v hv => ?_, fun i p v hv => ?_,
    fun hpl i w d hw hd => ?_, fun i w d hd => ?_⟩, fun hf => ?_, fun hf => ?_⟩
  · rw [hp, hg]; exact hs.str.links
  · rw [(hn n).2.1] at ha
    obtain ⟨a1, a2, a3, a4⟩ := hs.str.dead n ha
    refine ⟨by rw [(hn n).1]; exact a1, fun k => by rw [hdt]; exact a2 k, ?_, ?_⟩
    · exact (congrArg (fun n : GNode ClassDef Par => n.makeDense) (hn n).2.2.2.2.2.1).trans a3
    · exact (congrArg (fun n : GNode ClassDef Par => n.makeSparse) (hn n).2.2.2.2.2.1).trans a4
  · rw [(hn n).2.1]; exact hs.str.unborn n hle
  · rw [hdt] at hk; rw [hdn]; exact hs.str.dn q k c hk
  · rw [(hn w).2.1]; exact hs.str.keys i w d ((hn i).2.2.2.2.2.2 w d hd)
  · rw [(hn n).2.2.1] at ht; exact hs.str.tags n t ht
  · rw [(hn i).2.2.2.1] at hv; rw [hg]; exact hs.coh.r i v hv
  · rw [(hn i).2.2.2.2.1] at hv; rw [hg]; exact hs.coh.p i p v hv
  · rw [hg] at hpl hw ⊢; exact hs.coh.d hpl i w d hw ((hn i).2.2.2.2.2.2 w d hd)
  · rw [(hn w).2.1]; exact hs.coh.k i w d ((hn i).2.2.2.2.2.2 w d hd)
  · have := hs.perm hf
    unfold PermOne at this ⊢
    rw [hg]; exact this
  · have := hs.flags hf
    unfold Flags at this ⊢
    intro j
    rw [hgn]; exact this j

theorem drWrt_inv {h : Heap ClassDef Par Arr Jac} {m : Mode} (hs : Inv lib m h) (f : ℕ) (i w : Id) : Inv lib m (drWrt lib f i w h).1 := by
  obtain ⟨a, b, _⟩ := drWrt_sim (s := lib) (W := Wf lib m) (g := h.graph) f i w h hs.coh rfl
  have hf := drWrt_pres (s := lib) (rframe_rel (C := ClassDef) (T := Par) (V := Arr) (D := Jac)) f i w h
  refine ⟨hs.str.rframe hf, a, fun hfr => ?_, fun hp => ?_⟩
  · have := hs.perm hfr
    unfold PermOne at this ⊢
    rw [hf.graph]; exact this
  · have := hs.flags hp
    unfold Flags at this ⊢
    rw [hf.graph]; exact this

theorem mbind_inv {α β : Type} {m : Mode} {a : M ClassDef Par Arr Jac α} {k : α → M ClassDef Par Arr Jac β} {h : Heap ClassDef Par Arr Jac}
    (ha : Inv lib m (a h).1) (hk : ∀ x, Inv lib m (k x (a h).1).1) : Inv lib m (M.bind a k h).1 := by
  simp only [M.bind]
  rcases hx : a h with ⟨h', r⟩
  rw [hx] at ha hk
  cases r with
  | ok x => exact hk x
  | error e => exact ha

theorem freeJacs_inv {m : Mode} (f : ℕ) (md ms : Bool) (o : Id) : ∀ (fvs : List Id) {h : Heap ClassDef Par Arr Jac}, Inv lib m h →
    Inv lib m (freeJacs f md ms o fvs h).1
  | [], _, hs => hs
  | fv :: fvs, h, hs => by
    have rest : ∀ (d : Jac) {h : Heap ClassDef Par Arr Jac}, Inv lib m h →
        Inv lib m (M.bind (freeJacs f md ms o fvs) (fun ds => M.pure (d.outForm md ms :: ds)) h).1 :=
      fun d h hs => mbind_inv (freeJacs_inv f md ms o fvs hs) fun _ => freeJacs_inv f md ms o fvs hs
    unfold freeJacs
    split
    · split
      · refine mbind_inv (drWrt_inv hs f o _) fun d => ?_
        have hd := drWrt_inv hs f o
        refine mbind_inv ?_ fun d' => ?_
        · cases d <;> exact hd _
        · cases d <;> exact rest d' (hd _)
      · exact hs
    · refine mbind_inv (drWrt_inv hs f o _) fun d => ?_
      have hd := drWrt_inv hs f o
      refine mbind_inv ?_ fun d' => ?_
      · cases d <;> exact hd _
      · cases d <;> exact rest d' (hd _)

theorem stackedJ_inv {m : Mode} {h : Heap ClassDef Par Arr Jac} (hs : Inv lib m h) (f : ℕ) (md ms : Bool) (y : Id) (fvs : List Id) :
    Inv lib m (stackedJ f md ms y fvs h).1 := by
  unfold stackedJ
  split
  · exact hs
  · refine mbind_inv (freeJacs_inv f md ms _ fvs hs) fun ds => ?_
    split
    · exact freeJacs_inv f md ms _ fvs hs
    · exact dropDrs_inv (freeJacs_inv f md ms _ fvs hs) _

/-! ## Matrices -/

/-- Not a number. -/
def Jac.IsMat (d : Jac) : Prop := ∀ c, d ≠ .num c

theorem Jac.cols_rep {d : Jac} {m n : ℕ} {E : Ent} (hd : d.Rep m n E) (hm : d.IsMat) {idxs : List ℕ} (hi : ∀ k ∈ idxs, k < n) :
    ∃ d', d.cols idxs = .ok d' ∧ d'.Rep m idxs.length (fun i j => E i (idxs.getD j 0)) ∧ d'.IsMat := by
  have hb : ∀ j < idxs.length, idxs.getD j 0 < n := fun j hj => by
    rw [List.getD_eq_getElem _ _ hj]; exact hi _ (List.getElem_mem hj)
  cases d with
  | num c => exact absurd rfl (hm c)
  | dense m' n' e =>
    obtain ⟨rfl, rfl, he⟩ := hd
    refine ⟨.dense m' idxs.length fun i j => e i (idxs.getD j 0), ?_, ⟨rfl, rfl, fun i hi j hj => he i hi _ (hb j hj)⟩, fun c hc => by cases hc⟩
    simp only [Jac.cols]; rw [if_pos hi]
  | sparse m' n' e =>
    obtain ⟨rfl, rfl, he⟩ := hd
    refine ⟨.sparse m' idxs.length fun i j => e i (idxs.getD j 0), ?_, ⟨rfl, rfl, fun i hi j hj => he i hi _ (hb j hj)⟩, fun c hc => by cases hc⟩
    simp only [Jac.cols]; rw [if_pos hi]

theorem Jac.block_rep {d : Jac} {m n : ℕ} {E : Ent} (hd : d.Rep m n E) (hm : d.IsMat) : d.block.1 = m ∧ d.block.2.1 = n ∧ Ent.EqOn m n d.block.2.2 E := by
  cases d with
  | num c => exact absurd rfl (hm c)
  | dense m' n' e => exact hd
  | sparse m' n' e => exact hd

theorem Jac.outForm_mat {d : Jac} (hm : d.IsMat) (md ms : Bool) : (d.outForm md ms).IsMat := by
  cases d with
  | num c => exact absurd rfl (hm c)
  | dense m' n' e => cases md <;> cases ms <;> exact fun c hc => by cases hc
  | sparse m' n' e => cases md <;> cases ms <;> exact fun c hc => by cases hc

theorem finish_mat (d : Jac) : d.finish.IsMat := by
  intro c hc
  cases d with
  | num b => simp only [Jac.finish] at hc; split at hc <;> cases hc
  | dense m n e => simp only [Jac.finish] at hc; split at hc <;> cases hc
  | sparse m n e => cases hc

/-- `dr_wrt` returns matrices. -/
theorem meansDr_mat {g : Graph ClassDef Par} {i w : Id} {d : Jac} (h : MeansDr lib g i w (.ok (some d))) : d.IsMat := by
  obtain ⟨_, f, hf⟩ := h
  cases f with
  | zero => cases hf
  | succ f =>
    simp only [evalDr] at hf
    split at hf
    · cases hf
    · split at hf
      · cases hf
      · split at hf
        · cases hf
        · rename_i r _
          cases r with
          | none => cases hf
          | some r =>
            injection hf with hf
            injection hf with hf
            rw [← hf]
            exact Jac.outForm_mat (finish_mat r) _ _

/-- The blocks `E v`, of `m` rows, side by side. -/
theorem hstack_rep {m : ℕ} : ∀ {ds : List Jac} {bs : List (ℕ × Ent)}, ds ≠ [] → List.Forall₂ (fun d (b : ℕ × Ent) => d.Rep m b.1 b.2 ∧ d.IsMat) ds bs →
    ∃ d, Jac.hstack ds = .ok d ∧ d.Rep m (bs.map Prod.fst).sum (sideBySide (bs.map fun b => (m, b.1, b.2))) := by
  intro ds bs hne hall
  have hrows : ∀ x ∈ ds.map Jac.block, x.1 = m := by
    intro x hx
    obtain ⟨d, hd, rfl⟩ := List.mem_map.1 hx
    clear hne hx
    induction hall with
    | nil => cases hd
    | cons h _ ih =>
      rcases List.mem_cons.1 hd with rfl | hd
      · exact (Jac.block_rep h.1 h.2).1
      · exact ih hd
  have hcols : ((ds.map Jac.block).map fun x => x.2.1) = bs.map Prod.fst := by
    clear hne hrows
    induction hall with
    | nil => rfl
    | cons h _ ih => simp only [List.map_cons, ih, (Jac.block_rep h.1 h.2).2.1]
  have hent : ∀ i < m, ∀ j < (bs.map Prod.fst).sum, sideBySide (ds.map Jac.block) i j = sideBySide (bs.map fun b => (m, b.1, b.2)) i j := by
    clear hne hrows hcols
    induction hall with
    | nil => intro i _ j hj; simp at hj
    | cons h _ ih =>
      intro i hi j hj
      obtain ⟨h1, h2, h3⟩ := Jac.block_rep h.1 h.2
      simp only [List.map_cons, sideBySide, h2]
      simp only [List.map_cons, List.sum_cons] at hj
      split
      · exact h3 i hi j (by assumption)
      · exact ih i hi _ (by omega)
  cases ds with
  | nil => exact absurd rfl hne
  | cons d ds =>
    simp only [List.map_cons] at hrows hcols hent
    have h1 : d.block.1 = m := hrows _ (by simp)
    unfold Jac.hstack
    simp only [List.map_cons]
    rw [if_pos (by intro x hx; rw [h1]; exact hrows x (by simp [hx])), hcols, h1]
    refine ⟨_, rfl, ?_⟩
    split
    · exact ⟨rfl, rfl, hent⟩
    · exact ⟨rfl, rfl, hent⟩

theorem sideBySide_offsets (m : ℕ) (B : Free → Ent) : ∀ (vs : List Free) (o : ℕ), ∀ w ∈ offsets vs o, ∀ i, ∀ k < w.1.size,
    sideBySide (vs.map fun v => (m, v.size, B v)) i (w.2 - o + k) = B w.1 i k ∧ o ≤ w.2
  | [], _, w, hw => by cases hw
  | v :: vs, o, w, hw => by
    intro i k hk
    simp only [offsets, List.mem_cons] at hw
    simp only [List.map_cons, sideBySide]
    rcases hw with rfl | hw
    · rw [Nat.sub_self, Nat.zero_add, if_pos hk]
      exact ⟨rfl, Nat.le_refl _⟩
    · obtain ⟨h1, h2⟩ := sideBySide_offsets m B vs (o + v.size) w hw i k hk
      rw [if_neg (by omega)]
      refine ⟨?_, by omega⟩
      rw [← h1]
      congr 1
      omega

/-! ## The loop -/

theorem drWrt_inv_ok {h : Heap ClassDef Par Arr Jac} (hs : Inv lib ⟨False, True⟩ h) {f : ℕ} {i w : Id} {d : Option Jac}
    (hw : (h.graph w).cls.permute = false) (hd : evalDr lib h.graph f i w = .ok d) : (drWrt lib f i w h).2 = .ok d := by
  have := (drFresh_of_agree ((drWrt_sim f i w h hs.coh rfl).2.2 ⟨⟨lib_plainForm, fun j => hs.flags trivial j⟩, trivial, Or.inr hw⟩)).2.2
  rw [hd] at this
  exact this (by simp)

/-- What `freeJacs` does with the stack depth `f`, which suffices for the derivatives, for the free variables `vs`, whole or one level deep:
the columns selected from the derivatives `E v` of the objective with respect to the `Ch`s; an exception only if one of these derivatives is
`None`, hence zero. -/
theorem freeJacs_at {g : Graph ClassDef Par} {o : Id} {m f : ℕ} {E : Free → Ent} (md ms : Bool) : ∀ (vs : List Free),
    (∀ v ∈ vs, v.Ok g ∧ v.depth ≤ 1 ∧ ∃ vl d, Means lib g (.r v.l) (.ok vl) ∧ evalDr lib g f o v.l = .ok d ∧ num.RepO d m vl.size (E v)) →
    ∀ h : Heap ClassDef Par Arr Jac, Inv lib ⟨False, True⟩ h → h.graph = g →
      (freeJacs f md ms o (vs.map Free.fv) h).1.graph = g ∧ ((∃ ds, (freeJacs f md ms o (vs.map Free.fv) h).2 = .ok ds ∧
        List.Forall₂ (fun d (b : ℕ × Ent) => d.Rep m b.1 b.2 ∧ d.IsMat) ds (vs.map fun v => (v.size, fun i k => E v i (v.pos k)))) ∨
      ∃ e, (freeJacs f md ms o (vs.map Free.fv) h).2 = .error e ∧ e ≠ .fuel ∧ ∃ v ∈ vs, evalDr lib g f o v.l = .ok none ∧ ∃ vl, Means lib g (.r v.l) (.ok vl) ∧ Ent.IsZero m vl.size (E v))
  | [], _, h, _, hg => ⟨hg, Or.inl ⟨[], rfl, .nil⟩⟩
  | v :: vs, hv, h, hi, hg => by
    have ih := freeJacs_at (f := f) (E := E) md ms vs fun w hw => hv w (by simp [hw])
    obtain ⟨ok, hdep, vl, d, hvl, hd0, hrep⟩ := hv v (by simp)
    obtain ⟨x0, hx0, hn⟩ := ok.arr
    obtain ⟨z0, hz0, rfl⟩ := leaf_term ok.leaf hvl
    rw [hx0] at hz0
    obtain rfl : x0 = z0 := by simpa using hz0
    have hd : MeansDr lib g o v.l (.ok d) := ⟨by simp, f, hd0⟩
    have he : evalDr lib h.graph f o v.l = .ok d := by rw [hg]; exact hd0
    have hr := drWrt_inv_ok hi (by rw [hg, ok.leaf.1]; rfl) he
    have hfr := drWrt_pres (s := lib) (rframe_rel (C := ClassDef) (T := Par) (V := Arr) (D := Jac)) f o v.l h
    have hi2 := drWrt_inv hi f o v.l
    generalize hh2 : (drWrt lib f o v.l h).1 = h2 at hfr hi2
    have hg2 : h2.graph = g := hfr.graph.trans hg
    obtain ⟨ih1, ih2⟩ := ih h2 hi2 hg2
    -- the remaining turns, once the block of `v` is there
    have rest : ∀ d' : Jac, d'.Rep m v.size (fun i k => E v i (v.pos k)) → d'.IsMat →
        let r := M.bind (freeJacs f md ms o (vs.map Free.fv)) (fun ds => M.pure (d'.outForm md ms :: ds)) h2
        r.1.graph = g ∧ ((∃ ds, r.2 = .ok ds ∧
          List.Forall₂ (fun d (b : ℕ × Ent) => d.Rep m b.1 b.2 ∧ d.IsMat) ds ((v :: vs).map fun v => (v.size, fun i k => E v i (v.pos k)))) ∨
        ∃ e, r.2 = .error e ∧ e ≠ .fuel ∧ ∃ u ∈ v :: vs, evalDr lib g f o u.l = .ok none ∧ ∃ vl, Means lib g (.r u.l) (.ok vl) ∧ Ent.IsZero m vl.size (E u)) := by
      intro d' hd' hm'
      rcases ih2 with ⟨ds, e1, e2⟩ | ⟨e, e1, e2, u, hu, e5, vl, e3, e4⟩
      · dsimp only
        rw [mbind_ok e1]
        exact ⟨ih1, Or.inl ⟨_, rfl, .cons ⟨Jac.outForm_rep md ms hd', Jac.outForm_mat hm' md ms⟩ e2⟩⟩
      · dsimp only
        have : M.bind (freeJacs f md ms o (vs.map Free.fv)) (fun ds => M.pure (d'.outForm md ms :: ds)) h2 =
            ((freeJacs f md ms o (vs.map Free.fv) h2).1, .error e) := by
          simp only [M.bind]
          rcases hx : freeJacs f md ms o (vs.map Free.fv) h2 with ⟨h', r⟩
          rw [hx] at e1
          dsimp only at e1
          subst e1
          rfl
        rw [this]
        exact ⟨ih1, Or.inr ⟨e, rfl, e2, u, by simp [hu], e5, vl, e3, e4⟩⟩
    simp only [List.map_cons, freeJacs]
    revert hn
    cases hdv : v.depth with
    | zero =>
      intro hn
      obtain ⟨hfl, hosh, hpos⟩ : v.fv = v.l ∧ v.osh = x0.atleast1.shape ∧ ∀ k, v.pos k = k := by
        generalize v.fv = a, v.osh = b, v.pos = c at hn
        cases hn
        exact ⟨rfl, rfl, fun _ => rfl⟩
      rw [hg, hfl, if_neg (by rw [ok.leaf.1]; exact chSelect_ne_leaf), mbind_ok hr, hh2]
      have hsz : v.size = x0.atleast1.size := by unfold Free.size; rw [hosh]
      cases d with
      | none =>
        refine ⟨hg2, Or.inr ⟨.user 2, rfl, by simp, v, by simp, hd0, _, hvl, ?_⟩⟩
        exact hrep
      | some d =>
        have hpe : (fun i k => E v i (v.pos k)) = E v := by funext i k; rw [hpos]
        exact rest d (by rw [hpe, hsz]; exact hrep) (meansDr_mat hd)
    | succ n =>
      intro hn
      obtain rfl : n = 0 := by omega
      obtain ⟨idxs, ksh, hcls, ha, hp, hnn, hin, hosh, hpos⟩ : ∃ idxs ksh, (g v.fv).cls = chSelect ∧ (g v.fv).dterms nmA = some v.l ∧
          (g v.fv).terms nmP = some (.nats idxs) ∧ ksh.prod = idxs.length ∧ (∀ j ∈ idxs, j < x0.atleast1.shape.prod) ∧
          v.osh = (if ksh = [] then [1] else ksh) ∧ ∀ k, v.pos k = idxs.getD k 0 := by
        generalize v.fv = a, v.osh = b, v.pos = c at hn
        cases hn with
        | slice ht hy hp hq hn hi =>
          cases ht
          exact ⟨_, _, hy.cls, hy.kid ⟨0, by simp⟩, hp, hn, hi, rfl, fun _ => rfl⟩
      rw [hg, if_pos hcls, ha, hp]
      dsimp only
      rw [mbind_ok hr, hh2]
      have hsz : v.size = idxs.length := by unfold Free.size; rw [hosh, ones_prod, hnn]
      cases d with
      | none =>
        refine ⟨hg2, Or.inr ⟨.attr, rfl, by simp, v, by simp, hd0, _, hvl, ?_⟩⟩
        exact hrep
      | some d =>
        obtain ⟨d', e1, e2, e3⟩ := Jac.cols_rep (d := d) hrep (meansDr_mat hd) hin
        dsimp only
        rw [mbind_ok (a := d') (by show (M.lift (d.cols idxs) h2).2 = _; rw [e1]; rfl)]
        have : (fun i k => E v i (v.pos k)) = fun i j => E v i (idxs.getD j 0) := by funext i k; rw [hpos]
        exact rest d' (by rw [this, hsz]; exact e2) e3

/-- … given enough stack depth. -/
theorem freeJacs_spec {g : Graph ClassDef Par} {o : Id} {m : ℕ} {E : Free → Ent} (md ms : Bool) (vs : List Free)
    (hv : ∀ v ∈ vs, v.Ok g ∧ v.depth ≤ 1 ∧ ∃ vl d, Means lib g (.r v.l) (.ok vl) ∧ MeansDr lib g o v.l (.ok d) ∧ num.RepO d m vl.size (E v)) :
    ∃ f₀, ∀ f ≥ f₀, ∀ h : Heap ClassDef Par Arr Jac, Inv lib ⟨False, True⟩ h → h.graph = g →
      (freeJacs f md ms o (vs.map Free.fv) h).1.graph = g ∧ ((∃ ds, (freeJacs f md ms o (vs.map Free.fv) h).2 = .ok ds ∧
        List.Forall₂ (fun d (b : ℕ × Ent) => d.Rep m b.1 b.2 ∧ d.IsMat) ds (vs.map fun v => (v.size, fun i k => E v i (v.pos k)))) ∨
      ∃ e, (freeJacs f md ms o (vs.map Free.fv) h).2 = .error e ∧ e ≠ .fuel ∧ ∃ v ∈ vs, ∃ vl, Means lib g (.r v.l) (.ok vl) ∧ Ent.IsZero m vl.size (E v)) := by
  have hmax : ∃ f₀, ∀ f ≥ f₀, ∀ v ∈ vs, ∀ d, MeansDr lib g o v.l (.ok d) → evalDr lib g f o v.l = .ok d := by
    clear hv
    induction vs with
    | nil => exact ⟨0, fun f _ v hv => by cases hv⟩
    | cons v vs ih =>
      obtain ⟨f1, h1⟩ := ih
      by_cases hd : ∃ d, MeansDr lib g o v.l (.ok d)
      · obtain ⟨d, hd⟩ := hd
        obtain ⟨_, f2, hf2⟩ := id hd
        refine ⟨max f1 f2, fun f hf w hw e he => ?_⟩
        rcases List.mem_cons.1 hw with rfl | hw
        · have := he.unique hd
          rw [this]
          exact (evalDr_mono lib g (show f2 ≤ f by omega) o w.l (by rw [hf2]; simp)).trans hf2
        · exact h1 f (by omega) w hw e he
      · refine ⟨f1, fun f hf w hw e he => ?_⟩
        rcases List.mem_cons.1 hw with rfl | hw
        · exact absurd ⟨e, he⟩ hd
        · exact h1 f hf w hw e he
  obtain ⟨f₀, hf₀⟩ := hmax
  refine ⟨f₀, fun f hf h hi hg => ?_⟩
  refine (freeJacs_at md ms vs (fun v hvm => ?_) h hi hg).imp id (Or.imp id fun ⟨e, e1, e2, v, hv, _, e3⟩ => ⟨e, e1, e2, v, hv, e3⟩)
  obtain ⟨a, b, vl, d, c1, c2, c3⟩ := hv v hvm
  exact ⟨a, b, vl, d, c1, hf₀ f hf v hvm d c2, c3⟩

end Chumpy
