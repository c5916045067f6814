import Verif.AD.Wrong
/-!
# Derivatives of small expressions, step by step
-/
namespace Chumpy
open scoped BigOperators Topology

/-- Evaluated afresh, the derivative of `y` with respect to `w` is the `m × n` matrix `E` (or `None`, if that is zero). -/
def DrRep (g : Graph ClassDef Par) (y w : Id) (m n : ℕ) (E : Ent) : Prop :=
  ∃ o, MeansDr lib g y w (.ok o) ∧ num.RepO o m n E

theorem DrRep.reports {h : Heap ClassDef Par Arr Jac} (hr : Reach lib ⟨False, True⟩ h) {y w : Id} {m n : ℕ} {E : Ent}
    (hw : lib.isPermute (h.graph w).cls = false) (hd : DrRep h.graph y w m n E) : Reports h y w m n E := by
  obtain ⟨o, ⟨_, f₀, hf₀⟩, ho⟩ := hd
  refine ⟨f₀, fun f hf => ⟨o, ?_, ho⟩⟩
  have e := evalDr_mono lib h.graph hf y w
  rw [Le, hf₀] at e
  have := (C02_derivative_never_stale_partial lib_propsOk lib_plainForm hr f y w hw).2.2
  rw [e (by simp)] at this
  exact this (by simp)

theorem DrRep.congr {g : Graph ClassDef Par} {y w : Id} {m n : ℕ} {E E' : Ent} (h : DrRep g y w m n E) (e : Ent.EqOn m n E E') :
    DrRep g y w m n E' := by
  obtain ⟨o, h1, h2⟩ := h
  exact ⟨o, h1, num.repO_congr e h2⟩

theorem Reports.congr {h : Heap ClassDef Par Arr Jac} {y w : Id} {m n : ℕ} {E E' : Ent} (hR : Reports h y w m n E)
    (e : Ent.EqOn m n E E') : Reports h y w m n E' := by
  obtain ⟨f₀, h1⟩ := hR
  refine ⟨f₀, fun f hf => ?_⟩
  obtain ⟨o, h2, h3⟩ := h1 f hf
  exact ⟨o, h2, num.repO_congr e h3⟩

theorem HasJacobian.congr {g : Graph ClassDef Par} {y w : Id} {vy vw : Arr} {M M' : Ent} (h : HasJacobian g y w vy vw M)
    (e : Ent.EqOn vy.size vw.size M M') : HasJacobian g y w vy vw M' := by
  obtain ⟨F, h1, h2⟩ := h.deriv
  exact ⟨h.valY, h.valW, F, h1, by rw [← Ent.lin_congr e]; exact h2⟩

/-- A plain `Ch` does not depend on anything else. -/
theorem IsLeaf.drNone {g : Graph ClassDef Par} {i w : Id} (h : IsLeaf g i) (hiw : i ≠ w) (hw : lib.isPermute (g w).cls = false) :
    MeansDr lib g i w (.ok none) := by
  have hn : (g i).namesOf w = [] := by unfold GNode.namesOf; rw [h.2.2]; rfl
  exact drIs (r := none) (SlicedIs.none (compIs_none lib_localDr hiw hn) hw) (by rw [h.2.2]; exact TermsIs.nil _ _ _) rfl

theorem compIs_isA {g : Graph ClassDef Par} {y p : Id} {c : ClassDef} {ns : List Name} {kids : Fin ns.length → Id}
    (hy : IsA g y c ns kids) {v : Fin ns.length → Arr} {out : Arr} (hk : ∀ a, Means lib g (.r (kids a)) (.ok (v a)))
    (hout : Means lib g (.r y) (.ok out)) (hyp : y ≠ p) {d : Option Jac}
    (hd : ReturnsDr lib c (g y).terms (envOf num ns v (fun a => num.fn (v a).size (v a))) out ((g y).namesOf p) d) :
    CompIs lib g y p d := by
  rw [← hy.cls] at hd
  exact evalCompDr_of_returnsDr hyp hout (envOf_kids_some hy hk) hd

/-- One child, not `w`: the product. -/
theorem DrRep.un {g : Graph ClassDef Par} {y p w : Id} {c : ClassDef} {v out : Arr} {d : Jac} {n : ℕ} {P Q : Ent}
    (hy : IsA g y c [nmA] fun _ => p) (hv : Means lib g (.r p) (.ok v)) (hout : Means lib g (.r y) (.ok out))
    (hyp : y ≠ p) (hyw : y ≠ w) (hpw : p ≠ w) (hw : lib.isPermute (g w).cls = false)
    (hd : ReturnsDr lib c (g y).terms (env1 v) out [nmA] (some d)) (hP : Jac.Rep d out.size v.size P)
    (hQ : DrRep g p w v.size n Q) : DrRep g y w out.size n (Ent.mul v.size P Q) := by
  have hk : (g y).dterms nmA = some p := hy.kid (0 : Fin 1)
  have hn : (g y).namesOf w = [] := by simp [GNode.namesOf, hy.dnames, hk, hpw]
  have hdirect : SlicedIs lib g y w none := SlicedIs.none (compIs_none lib_localDr hyw hn) hw
  have hs : SlicedIs lib g y p (some d) := SlicedIs.some (compIs_isA hy (v := fun _ => v) (fun _ => hv) hout hyp (by
    rw [namesOf_one hy]; erw [env_one]; exact hd))
  obtain ⟨o, ho, hoQ⟩ := hQ
  cases o with
  | none =>
    refine ⟨none, drIs (r := none) hdirect (by rw [hy.dnames]; exact .none hk hpw ho (.nil ..)) rfl, ?_⟩
    show Ent.EqOn _ _ _ _
    intro i _ j hj
    show ∑ k ∈ Finset.range v.size, P i k * Q k j = 0
    refine Finset.sum_eq_zero fun k hk => ?_
    have : Q k j = 0 := hoQ k (Finset.mem_range.1 hk) j hj
    rw [this, mul_zero]
  | some d2 =>
    obtain ⟨x, hx, hxr⟩ := Jac.superdot_rep hP hoQ
    have := drIs (r := some x) hdirect (by rw [hy.dnames]; exact .some hk hpw ho hs hx (.nil ..)) rfl
    exact ⟨_, this, Jac.outForm_rep _ _ (Jac.finish_rep hxr)⟩

/-- Two children, the first `w` and the second not depending on it. -/
theorem DrRep.left {g : Graph ClassDef Par} {y w b : Id} {c : ClassDef} {u v out : Arr} {d : Option Jac} {P : Ent}
    (hy : IsA g y c [nmA, nmB] ![w, b]) (hu : Means lib g (.r w) (.ok u)) (hv : Means lib g (.r b) (.ok v))
    (hout : Means lib g (.r y) (.ok out)) (hyw : y ≠ w) (hbw : b ≠ w) (hw : lib.isPermute (g w).cls = false)
    (hb : MeansDr lib g b w (.ok none))
    (hd : ReturnsDr lib c (g y).terms (env2 u v) out [nmA] d) (hP : num.RepO d out.size u.size P) :
    DrRep g y w out.size u.size P := by
  have hk0 : (g y).dterms nmA = some w := hy.kid (0 : Fin 2)
  have hk1 : (g y).dterms nmB = some b := hy.kid (1 : Fin 2)
  have hcomp : CompIs lib g y w d := compIs_isA hy (kids2 hu hv) hout hyw (by
    rw [namesOf_left hy (Ne.symm hbw)]; erw [env_two]; exact hd)
  have hdirect : SlicedIs lib g y w d := by
    cases d with
    | none => exact SlicedIs.none hcomp hw
    | some d => exact SlicedIs.some hcomp
  have ht : TermsIs lib g y w (g y).dnames d.toList d.toList := by
    rw [hy.dnames]
    exact .wrt hk0 (.none hk1 hbw hb (.nil ..))
  cases d with
  | none => exact ⟨none, drIs (r := none) hdirect ht rfl, hP⟩
  | some d => exact ⟨_, drIs (r := some d) hdirect ht rfl, Jac.outForm_rep _ _ (Jac.finish_rep hP)⟩

/-- Two reports of the same shape agree. -/
theorem Reports.eq {h : Heap ClassDef Par Arr Jac} {y w : Id} {m n : ℕ} {E E' : Ent} (h1 : Reports h y w m n E)
    (h2 : Reports h y w m n E') : Ent.EqOn m n E E' := by
  obtain ⟨f1, h1⟩ := h1
  obtain ⟨f2, h2⟩ := h2
  obtain ⟨o, ho, hE⟩ := h1 _ (Nat.le_max_left f1 f2)
  obtain ⟨o', ho', hE'⟩ := h2 _ (Nat.le_max_right f1 f2)
  rw [ho] at ho'
  injection ho' with e
  subst e
  cases o with
  | none => exact fun i hi j hj => (hE i hi j hj).trans (hE' i hi j hj).symm
  | some d =>
    cases d with
    | num x =>
      obtain ⟨rfl, rfl, e⟩ := hE
      obtain ⟨_, _, e'⟩ := hE'
      intro i hi j hj
      obtain rfl : i = 0 := by omega
      obtain rfl : j = 0 := by omega
      exact e.trans e'.symm
    | dense r c x => exact fun i hi j hj => (hE.2.2 i hi j hj).symm.trans (hE'.2.2 i hi j hj)
    | sparse r c x => exact fun i hi j hj => (hE.2.2 i hi j hj).symm.trans (hE'.2.2 i hi j hj)

/-- At the present entries the function of the Jacobian has the present value. -/
theorem jac_at {g : Graph ClassDef Par} {y w : Id} {vy vw : Arr} (hy : Means lib g (.r y) (.ok vy)) (hw : Means lib g (.r w) (.ok vw))
    {F : (Fin vw.size → ℝ) → Fin vy.size → ℝ}
    (hF : ∀ᶠ t in 𝓝 vw.data, Means lib (setTo g w (vw.put t)) (.r y) (.ok (vy.put (F t)))) : F vw.data = vy.data := by
  have h1 := hF.self_of_nhds
  rw [Arr.put_data] at h1
  have h2 := means_other (w := w) (vw := vw) (fun j hj => by simp [setTo, hj]) hw (means_setTo g w vw) hy
  have := h1.unique h2
  injection this with e
  have := congrArg (num.fn vy.size) e
  erw [num.fn_put] at this
  exact this.trans (fn_eq vy)

/-- The chain rule for an object with one child. -/
theorem HasJacobian.un {g : Graph ClassDef Par} {y p w : Id} {c : ClassDef} {v out vw : Arr} {P Q : Ent}
    (hy : IsA g y c [nmA] fun _ => p) (hE : Exact c (g y).terms [nmA] (fun _ => v) out fun _ => P) (hyw : y ≠ w)
    (hQ : HasJacobian g p w v vw Q) : HasJacobian g y w out vw (Ent.mul v.size P Q) := by
  obtain ⟨F, hF1, hF2⟩ := hE.body
  obtain ⟨G, hG1, hG2⟩ := hQ.deriv
  have hG0 := jac_at hQ.valY hQ.valW hG1
  have e0 : (fun _ => G vw.data : (a : Fin [nmA].length) → Fin v.size → ℝ) = fun _ => num.fn v.size v := by
    funext a; rw [hG0, fn_eq]
  have hG2' : HasFDerivAt (fun t => (fun _ => G t : (a : Fin [nmA].length) → Fin v.size → ℝ))
      (ContinuousLinearMap.pi fun _ => Ent.lin v.size vw.size Q) vw.data := hasFDerivAt_pi.2 fun _ => hG2
  refine ⟨means_of_isA hy (v := fun _ => v) (fun _ => hQ.valY) hE.val, hQ.valW, fun t => F fun _ => G t, ?_, ?_⟩
  · have ht : Filter.Tendsto (fun t => (fun _ => G t : (a : Fin [nmA].length) → Fin v.size → ℝ)) (𝓝 vw.data)
        (𝓝 fun _ => num.fn v.size v) := by
      have := hG2'.continuousAt.tendsto
      rwa [e0] at this
    filter_upwards [hG1, ht.eventually hF1] with t h1 h2
    have hy' : IsA (setTo g w (vw.put t)) y c [nmA] fun _ => p := by
      have e : setTo g w (vw.put t) y = g y := by simp [setTo, hyw]
      exact ⟨by rw [e]; exact hy.cls, by rw [e]; exact hy.dnames, hy.nodup, fun a => by rw [e]; exact hy.kid a⟩
    have e : setTo g w (vw.put t) y = g y := by simp [setTo, hyw]
    rw [← e, ← hy'.cls] at h2
    refine means_of_returns ?_ h2
    intro k z hz
    obtain ⟨a, rfl, rfl⟩ := envOf_some hy.nodup _ _ hz
    exact ⟨p, hy'.kid a, h1⟩
  · have h := (show HasFDerivAt F _ (fun _ => G vw.data) by rw [e0]; exact hF2).comp vw.data hG2'
    refine h.congr_fderiv ?_
    rw [Ent.lin_mul]
    refine ContinuousLinearMap.ext fun x => ?_
    show (∑ a : Fin 1, (Ent.lin out.size v.size P).comp (ContinuousLinearMap.proj a)) (fun _ => Ent.lin v.size vw.size Q x) = _
    rw [Fin.sum_univ_one]
    rfl

/-- "The value of `y` as a function of `w` has the Jacobian `E`, and `dr_wrt`, evaluated afresh, returns it." -/
structure Deriv (g : Graph ClassDef Par) (y w : Id) (vy vw : Arr) (E : Ent) : Prop where
  jac : HasJacobian g y w vy vw E
  rep : DrRep g y w vy.size vw.size E

theorem Deriv.congr {g : Graph ClassDef Par} {y w : Id} {vy vw : Arr} {E E' : Ent} (h : Deriv g y w vy vw E)
    (e : Ent.EqOn vy.size vw.size E E') : Deriv g y w vy vw E' := ⟨h.jac.congr e, h.rep.congr e⟩

/-- One child, not `w`. -/
theorem Deriv.un {g : Graph ClassDef Par} {y p w : Id} {c : ClassDef} {v out vw : Arr} {d : Jac} {P Q : Ent}
    (hy : IsA g y c [nmA] fun _ => p) (hE : Exact c (g y).terms [nmA] (fun _ => v) out fun _ => P)
    (hyp : y ≠ p) (hyw : y ≠ w) (hpw : p ≠ w) (hw : lib.isPermute (g w).cls = false)
    (hd : ReturnsDr lib c (g y).terms (env1 v) out [nmA] (some d)) (hQ : Deriv g p w v vw Q) :
    Deriv g y w out vw (Ent.mul v.size P Q) := by
  have hm := means_of_isA hy (v := fun _ => v) (fun _ => hQ.jac.valY) hE.val
  refine ⟨HasJacobian.un hy hE hyw hQ.jac, DrRep.un hy hQ.jac.valY hm hyp hyw hpw hw hd ?_ hQ.rep⟩
  obtain ⟨d', h1, h2⟩ := hE.dr [nmA] v (by simp) (List.Sublist.refl _) (fun _ _ => rfl)
  have e1 : (∑ a : Fin 1 with ([nmA] : List Name).get a ∈ [nmA], (fun _ => P : Fin 1 → Ent) a) = P := by
    rw [Finset.sum_filter]; simp
  erw [e1] at h2
  have : d' = some d := by
    erw [env_one] at h1
    exact h1.unique hd
  subst this
  exact h2
end Chumpy
