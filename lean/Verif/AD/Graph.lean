import Verif.AD.Lib
/-!
# Derivatives of expressions

The specification: the value of `y` as a function of the entries of `w`, and its Fréchet derivative.
-/
namespace Chumpy
open scoped BigOperators Topology

/-- A class whose value is `v`. -/
def constClass (v : Arr) : ClassDef where
  r := .ret v
  dr := fun _ _ => .ret Option.none
  dr_none := rfl

/-- The graph in which object `w` has been replaced by a constant of value `v`. -/
def setTo (g : Graph ClassDef Par) (w : Id) (v : Arr) : Graph ClassDef Par := fun i =>
  if i = w then ⟨constClass v, fun _ => none, [], fun _ => none, false, false⟩ else g i

/-- "The value of `y` as a function of the entries of `w` has the Jacobian `M`": `vy`, `vw` are the values of `y` and
`w`; giving `w` other entries `t`, near the present ones, makes the value of `y` an array of the same shape, with
entries `F t`; and `F` has the Fréchet derivative `M` at the present entries. -/
structure HasJacobian (g : Graph ClassDef Par) (y w : Id) (vy vw : Arr) (M : Ent) : Prop where
  valY : Means lib g (.r y) (.ok vy)
  valW : Means lib g (.r w) (.ok vw)
  deriv : ∃ F : (Fin vw.size → ℝ) → Fin vy.size → ℝ,
    (∀ᶠ t in 𝓝 vw.data, Means lib (setTo g w (vw.put t)) (.r y) (.ok (vy.put (F t)))) ∧
    HasFDerivAt F (Ent.lin vy.size vw.size M) vw.data

/-- The class of object `i` returns the true partial Jacobians at the present values, when only those children vary
that are `w` or depend on it. -/
def Correct (g : Graph ClassDef Par) (w i : Id) : Prop :=
  ∃ out v P, Means lib g (.r i) (.ok out) ∧ (∀ a, Means lib g (.r ((g i).kid ((g i).links.get a))) (.ok (v a))) ∧
    TrueJacobians num (g i).cls (g i).terms (g i).links v out (fun a => Reaches g ((g i).kid ((g i).links.get a)) w) (fun a => (g i).kid ((g i).links.get a)) P

theorem Arr.put_data (v : Arr) : v.put v.data = v := rfl

theorem means_setTo (g : Graph ClassDef Par) (w : Id) (v : Arr) : Means lib (setTo g w v) (.r w) (.ok v) :=
  ⟨by simp, 1, by simp [evalReq, setTo, constClass, evalProg]⟩

theorem HasJacobian.unique {g : Graph ClassDef Par} {y w : Id} {vy vw vy' vw' : Arr} {M M' : Ent}
    (h : HasJacobian g y w vy vw M) (h' : HasJacobian g y w vy' vw' M') :
    vy = vy' ∧ vw = vw' ∧ Ent.EqOn vy.size vw.size M M' := by
  have e1 := h.valY.unique h'.valY
  have e2 := h.valW.unique h'.valW
  cases e1; cases e2
  refine ⟨rfl, rfl, ?_⟩
  obtain ⟨F, h1, h2⟩ := h.deriv
  obtain ⟨F', h1', h2'⟩ := h'.deriv
  have e : F =ᶠ[𝓝 vw.data] F' := by
    filter_upwards [h1, h1'] with t a b
    have := a.unique b
    injection this with this
    have := congrArg (fun v : Arr => num.fn vy.size v) this
    funext k
    have hk := congrFun this k
    simpa [Num.fn, Arr.vec, Arr.put] using hk
  exact Ent.lin_inj (h2.unique (h2'.congr_of_eventuallyEq e))

/-- The chain rule computes the Jacobian. -/
theorem jacobian {g : Graph ClassDef Par} {y w : Id} {o : Option Jac} (hc : ChainOk lib g y w) {vw : Arr}
    (hw : Means lib g (.r w) (.ok vw)) (hob : ∀ i, Reaches g y i → i ≠ w → Correct g w i) (hyw : y ≠ w)
    (h : MeansDr lib g y w (.ok o)) :
    ∃ vy M, HasJacobian g y w vy vw M ∧ num.RepO o vy.size vw.size M := by
  classical
  let φ : (Fin vw.size → ℝ) → Id → Arr := fun t i =>
    if h : ∃ v, Means lib (setTo g w (vw.put t)) (.r i) (.ok v) then h.choose else vw
  have hφ : ∀ t i v, Means lib (setTo g w (vw.put t)) (.r i) (.ok v) → φ t i = v := by
    intro t i v hv
    have he : ∃ v, Means lib (setTo g w (vw.put t)) (.r i) (.ok v) := ⟨v, hv⟩
    simp only [φ, dif_pos he]
    have := he.choose_spec.unique hv
    injection this
  have hφw : ∀ t, φ t w = vw.put t := fun t => hφ t w _ (means_setTo g w _)
  have h0 : ∀ i v, Means lib g (.r i) (.ok v) → φ vw.data i = v := by
    intro i v hv
    refine hφ _ i v ?_
    rw [Arr.put_data]
    exact means_other (w := w) (vw := vw) (fun j hj => by simp [setTo, hj]) hw (means_setTo g w vw) hv
  have hm : ∀ i, Reaches g y i → Means lib g (.r i) (.ok (φ vw.data i)) := by
    intro i hi
    by_cases hiw : i = w
    · subst hiw; rw [hφw, Arr.put_data]; exact hw
    · obtain ⟨out, _, _, hout, _⟩ := hob i hi hiw
      rw [h0 i out hout]; exact hout
  have hobj : ∀ i, Reaches g y i → i ≠ w → ObjOk num g w (φ vw.data) i := by
    intro i hi hiw
    obtain ⟨out, v, P, h1, h2, h3⟩ := hob i hi hiw
    refine ⟨P, ?_⟩
    rw [h0 i out h1]
    have : (fun a => φ vw.data ((g i).kid ((g i).links.get a))) = v := funext fun a => h0 _ _ (h2 a)
    rw [this]; exact h3
  have hsz : φ vw.data w = vw := by rw [hφw, Arr.put_data]
  obtain ⟨_, f, hf⟩ := h
  obtain ⟨M, r1, r2, r3⟩ := chain_rule (N := num) lib_localDr hc (n := vw.size) (φ := φ) (t₀ := vw.data)
    (by rw [hsz]) (fun t => by rw [hφw]; exact num.fn_put vw t)
    (fun t => by rw [hφw, hφw]; rw [Arr.put_data]; exact (congrArg (Arr.put vw) (num.fn_put vw t)).symm)
    (G := fun t => setTo g w (vw.put t)) (fun t i hi => by simp [setTo, hi])
    (fun t => by rw [hφw]; exact means_setTo g w _) hφ hm hobj f y o .refl hyw hf
  refine ⟨φ vw.data y, M, ⟨hm y .refl, hw, _, ?_, r2⟩, r1⟩
  filter_upwards [r3] with t ht
  rw [← ht.1]; exact ht.2

/-! ## From exact classes -/

theorem envOf_some {ns : List Name} (hn : ns.Nodup) (v : Fin ns.length → Arr) (u : (a : Fin ns.length) → Fin (num.size (v a)) → ℝ)
    {k : Name} {x : Arr} (h : envOf num ns v u k = some x) : ∃ a, ns.get a = k ∧ x = (v a).put (u a) := by
  by_cases hk : k ∈ ns
  · obtain ⟨a, rfl⟩ := List.get_of_mem hk
    rw [envOf_get hn] at h
    injection h with h
    exact ⟨a, rfl, h.symm⟩
  · rw [envOf_not v u hk] at h; cases h

/-- An object of an exact class has the value. -/
theorem correct_of_exact {g : Graph ClassDef Par} {i : Id} {ns : List Name} {v : Fin ns.length → Arr} {out : Arr}
    {P : Fin ns.length → Ent} (hl : (g i).links = ns) (hn : ns.Nodup)
    (hk : ∀ a, Means lib g (.r ((g i).kid (ns.get a))) (.ok (v a))) (hE : Exact (g i).cls (g i).terms ns v out P) :
    Means lib g (.r i) (.ok out) ∧ ∀ w, Correct g w i := by
  subst hl
  have hm : Means lib g (.r i) (.ok out) := by
    refine means_of_returns ?_ hE.val
    intro k x hx
    obtain ⟨a, rfl, rfl⟩ := envOf_some hn v _ hx
    refine ⟨(g i).kid ((g i).links.get a), ?_, ?_⟩
    · have := List.get_mem (g i).links a
      simp only [GNode.links, List.mem_filter, Option.isSome_iff_exists] at this
      obtain ⟨_, c, hc⟩ := this
      show (g i).dterms ((g i).links.get a) = _
      rw [GNode.kid]; erw [hc]; rfl
    · rw [put_fn]; exact hk a
  exact ⟨hm, fun w => ⟨out, v, P, hm, hk, (hE.on _ _).trueJacobians⟩⟩

/-- A leaf holding `v`. -/
theorem exact_leaf {tm : Name → Option Par} {v : Arr} (hx : tm nmX = some (.arr v)) (P : Fin 0 → Ent) :
    Exact chLeaf tm [] (fun a => a.elim0) v.atleast1 P where
  val := ⟨0, by show runBody _ _ _ _ chLeaf.r = _; simp [chLeaf, runBody, hx]⟩
  body := by
    refine ⟨fun _ => v.atleast1.data, Filter.Eventually.of_forall fun u => ⟨0, ?_⟩, ?_⟩
    · show runBody _ _ _ _ chLeaf.r = _; simp [chLeaf, runBody, hx, Arr.put_data]
    · refine (hasFDerivAt_const _ _).congr_fderiv ?_
      exact (Finset.sum_empty).symm
  dr := by
    intro S x h1 h2 _
    cases h2; exact absurd rfl h1
end Chumpy
