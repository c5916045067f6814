import Verif.AD.Lambda
import Verif.AD.Built
import Verif.AD.Unary
import Verif.Core.LambdaBuild
/-!
# C45: `Ch(lambda ...)` is function application

The specification is `applied` (`Verif/Core/Lambda.lean`): the expression graph in which the body of every lambda refers to the
arguments the lambda now has.  Values and derivatives there are evaluated from scratch (`evalReq`, `evalDr`, `HasJacobian`).
-/
namespace Chumpy
open scoped BigOperators Topology
variable {C T V D : Type} {s : Sig C T V D}

/-- A read of `q` with outcome `out` agrees with evaluation from scratch in the graph `g`: it returns the same, it raises the same, and it
does so if evaluation from scratch needs no more than the present stack depth. -/
def ReadIn (s : Sig C T V D) (g : Graph C T) (f : Nat) (q : Req) (out : Except Err V) : Prop :=
  (∀ v, out = .ok v → Means s g q (.ok v)) ∧
  (∀ e, out = .error e → e ≠ .fuel → Means s g q (.error e)) ∧
  (evalReq s g f q ≠ .error .fuel → out = evalReq s g f q)

/-- The same for derivatives. -/
def DrIn (s : Sig C T V D) (g : Graph C T) (f : Nat) (i w : Id) (out : Except Err (Option D)) : Prop :=
  (∀ d, out = .ok d → MeansDr s g i w (.ok d)) ∧
  (∀ e, out = .error e → e ≠ .fuel → MeansDr s g i w (.error e)) ∧
  (evalDr s g f i w ≠ .error .fuel → out = evalDr s g f i w)

theorem readIn_of_agree {g : Graph C T} {f : Nat} {q : Req} {out : Except Err V} (ha : Agree out (fun f => evalReq s g f q) f) :
    ReadIn s g f q out := by
  refine ⟨fun v hv => ⟨by simp, ha.2 (by rw [hv]; simp) |>.imp fun _ h => h.trans hv⟩, fun e he hne => ⟨?_, ?_⟩, ha.1⟩
  · intro h; injection h with h; exact hne h
  · obtain ⟨f', hf'⟩ := ha.2 (by rw [he]; intro h; injection h with h; exact hne h)
    exact ⟨f', hf'.trans he⟩

theorem drIn_of_agree {g : Graph C T} {f : Nat} {i w : Id} {out : Except Err (Option D)} (ha : Agree out (fun f => evalDr s g f i w) f) :
    DrIn s g f i w out := by
  refine ⟨fun v hv => ⟨by simp, ha.2 (by rw [hv]; simp) |>.imp fun _ h => h.trans hv⟩, fun e he hne => ⟨?_, ?_⟩, ha.1⟩
  · intro h; injection h with h; exact hne h
  · obtain ⟨f', hf'⟩ := ha.2 (by rw [he]; intro h; injection h with h; exact hne h)
    exact ⟨f', hf'.trans he⟩

variable {L : Lam} {h : Heap C T V D}

/-- C45, values.  After every history of constructions, assignments, reads and collections, in which lambdas are made of any bodies and
applied to anything, also to other lambdas, `obj.r` – for a lambda, or for anything depending on lambdas – returns what an evaluation
from scratch returns in the graph where the bodies refer to the arguments the lambdas now have.  Missing for the full claim:
assignments of several keywords at once and tagged batches, copies, collection of lambdas, and programs that get hold of objects inside
the body (`LLegal`). -/
theorem C45_value_of_body_partial (hp : s.PropsOk) (hr : LReach s L h) {i : Id} (hi : L.owners i = []) (f : Nat) :
    ReadIn s (applied s L h.graph) f (.r i) (readL s L f (.r i) h).2 :=
  readIn_of_agree (lreach_read hp hr hi f)

/-- C45, derivatives: `dr_wrt` returns what the chain rule computes from scratch in the same graph.  `w` is not a slice. -/
theorem C45_derivative_of_body_partial (hp : s.PropsOk) (hpf : s.PlainForm) (hr : LReach s L h) {i w : Id} (hi : L.owners i = [])
    (hw : L.owners w = []) (hns : s.isPermute (h.graph w).cls = false) (f : Nat) :
    DrIn s (applied s L h.graph) f i w (drWrtL s L f i w h).2 :=
  drIn_of_agree (lreach_dr hp hpf hr hi hw hns f)

/-- The graph `g` with `F` applied to `y`: `y` under the argument's name, and where the body has the handle `hd`. -/
def appliedTo (s : Sig C T V D) (g : Graph C T) (F : Id) (a : Name) (hd y : Id) : Graph C T := fun j =>
  { g j with dterms := fun k => if (j = F ∧ k = a) ∨ (j = hd ∧ k = s.xname) then some y else (g j).dterms k }

/-- The assignment `F.a = y` applies `F` to `y`. -/
theorem applied_link (hp : s.PropsOk) (hr : LReach s L h) {F hd y : Id} {a : Name} (hF : L.owners F = [])
    (ha : (a, hd) ∈ L.args F) (hya : (h.node y).alive = true) :
    applied s L (stepL s L (.link F a y) h).graph = appliedTo s (applied s L h.graph) F a hd y := by
  obtain ⟨S, hl⟩ := lreach_inv hp hr
  have ok := hl.lam F a hd ha
  have hdn : a ∈ (h.graph F).dnames := by
    obtain ⟨z, hz, _⟩ := ok.arg
    exact hl.str.dn F a z hz
  have hb := (setattr_built (s := s) hl.str ok.liveF (kw := .link a y) ⟨hdn, hya⟩ (itr := none) (by intro t h; cases h)).2
  have hg : (stepL s L (.link F a y) h).graph = fun j => if j = F then (h.graph F).assign (.link a y) else h.graph j := by
    simp only [stepL, ok.liveF, if_true]
    funext j; exact hb.graph j
  rw [hg]
  funext j
  have hoF := hl.of_none hF
  have hoh := (hl.ofIff F a hd).1 ha
  cases hj : L.of j with
  | none =>
    have hjd : j ≠ hd := by rintro rfl; rw [hj] at hoh; cases hoh
    rw [applied_none hj]
    simp only [appliedTo]
    rw [applied_none hj]
    by_cases hjF : j = F
    · subst hjF
      simp [GNode.assign, hjd]
    · simp [hjF, hjd]
  | some Fa =>
    obtain ⟨F', a'⟩ := Fa
    have hjF : j ≠ F := by rintro rfl; rw [hj] at hoF; cases hoF
    rw [applied_some hj]
    simp only [appliedTo]
    rw [applied_some hj]
    simp only [hjF, if_false, false_and, false_or]
    congr 1
    funext k
    by_cases hk : k = s.xname
    · by_cases hjd : j = hd
      · subst hjd
        rw [hoh] at hj; cases hj
        simp [hk, GNode.assign]
      · simp only [hk, hjd, false_and, if_false, if_true]
        by_cases hF' : F' = F
        · subst hF'
          have ha' : a' ≠ a := by
            rintro rfl
            exact hjd (hl.uniq _ _ _ _ ((hl.ofIff _ _ _).2 hj) ha)
          simp [GNode.assign, ha']
        · simp [hF']
    · simp [hk]

/-- C45, assignments: after `F.a = y`, whatever was assigned and read before, the value of `F` is that of the body with `y` in place of
the argument `a`. -/
theorem C45_assignment_partial (hp : s.PropsOk) (hr : LReach s L h) {F hd y : Id} {a : Name} (hF : L.owners F = []) (hy : L.owners y = [])
    (ha : (a, hd) ∈ L.args F) (hya : (h.node y).alive = true) (f : Nat) :
    ReadIn s (appliedTo s (applied s L h.graph) F a hd y) f (.r F) (readL s L f (.r F) (stepL s L (.link F a y) h)).2 := by
  have hst : LReach s L (stepL s L (.link F a y) h) := LReach.step (.link F a y) hr (by exact ⟨hF, hy⟩)
  rw [← applied_link hp hr hF ha hya]
  exact C45_value_of_body_partial hp hst hF f

/-- C45 in full, for the library's classes: the value of a lambda is that of its body on its present arguments, and if the classes are
right about their partial derivatives, `dr_wrt` of the lambda is the derivative of that value. -/
def C45_full : Prop :=
  ∀ (L : Lam) (h : Heap ClassDef Par Arr Jac), LReach lib L h → ∀ F, L.owners F = [] →
    (∀ f, ReadIn lib (applied lib L h.graph) f (.r F) (readL lib L f (.r F) h).2) ∧
    ∀ (f : ℕ) (w : Id) (vw : Arr) (o : Option Jac), L.owners w = [] → F ≠ w → Means lib (applied lib L h.graph) (.r w) (.ok vw) →
      PassChain (applied lib L h.graph) F w → (drWrtL lib L f F w h).2 = .ok o →
      ∃ vy M, HasJacobian (applied lib L h.graph) F w vy vw M ∧ num.RepO o vy.size vw.size M

/-- C45, true derivatives: if the classes are right about their partial derivatives, `dr_wrt` of a lambda, or of anything made of lambdas,
is the derivative of the value of the body on the present arguments.  Missing: an argument of several entries handed on unchanged, as
in `Ch(lambda a: a)` (`Straight`, see `C45_refuted`). -/
theorem C45_derivative_is_jacobian_partial {h : Heap ClassDef Par Arr Jac} (hr : LReach lib L h) {y w : Id} (hy : L.owners y = [])
    (hw : L.owners w = []) {vw : Arr} (hv : Means lib (applied lib L h.graph) (.r w) (.ok vw)) (hc : PassChain (applied lib L h.graph) y w)
    (hyw : y ≠ w) (hs : ¬ Straight (applied lib L h.graph) w y ∨ vw.size = 1) {f : ℕ} {o : Option Jac} (hd : (drWrtL lib L f y w h).2 = .ok o) :
    ∃ vy M, HasJacobian (applied lib L h.graph) y w vy vw M ∧ num.RepO o vy.size vw.size M := by
  have hns : (h.graph w).cls.permute = false := by have := hc.wrt; rwa [applied_cls] at this
  have hm := (C45_derivative_of_body_partial lib_propsOk lib_plainForm hr hy hw hns f).1 o hd
  obtain ⟨vy, M, hJ, hM⟩ := jacobian_pass hc hv hyw hm
  refine ⟨vy, M, hJ, ?_⟩
  rcases hM with hM | ⟨hst, rfl, e, hM⟩
  · exact hM
  · rcases hs with hs | hs
    · exact absurd hst hs
    · have e1 : vy.size = 1 := by rw [e]; exact hs
      rw [hs] at hM
      rw [e1, hs]
      refine ⟨rfl, rfl, ?_⟩
      intro i hi j hj
      rw [hM i hi j hj]
      have hi : i = 0 := by omega
      have hj : j = 0 := by omega
      subst hi hj; rfl

/-- C45, `dr_wrt` does return: if moreover no class raises, then with enough stack depth it returns the derivative.  Missing also: `w`
with exactly one entry (`C18_single_entry_refuted`). -/
theorem C45_dr_returns_partial {h : Heap ClassDef Par Arr Jac} (hr : LReach lib L h) {y w : Id} (hy : L.owners y = [])
    (hw : L.owners w = []) {vw : Arr} (hv : Means lib (applied lib L h.graph) (.r w) (.ok vw)) (hc : PassChain (applied lib L h.graph) y w)
    (hyw : y ≠ w) (hs : ¬ Straight (applied lib L h.graph) w y) (hsz : vw.size ≠ 1)
    (hacc : Acc (fun a b => Uses (applied lib L h.graph) b a) y)
    (hob : ∀ i, Reaches (applied lib L h.graph) y i → i ≠ w → (∃ p, HandsOn (applied lib L h.graph) i p) ∨ ExactlyFor (applied lib L h.graph) w i)
    (hsl : ∀ j, Reaches (applied lib L h.graph) y j → (applied lib L h.graph j).cls.permute = true → ∃ c, (applied lib L h.graph j).dterms nmA = some c) :
    ∃ vy M, HasJacobian (applied lib L h.graph) y w vy vw M ∧
      ∃ f₀, ∀ f ≥ f₀, ∃ o, (drWrtL lib L f y w h).2 = .ok o ∧ num.RepO o vy.size vw.size M := by
  have hns : (h.graph w).cls.permute = false := by have := hc.wrt; rwa [applied_cls] at this
  obtain ⟨o, ho⟩ := dr_returns_pass hacc hc hv hsz hob hsl hyw
  obtain ⟨vy, M, hJ, hM⟩ := jacobian_pass hc hv hyw ho
  obtain ⟨_, f₀, hf₀⟩ := ho
  refine ⟨vy, M, hJ, f₀, fun f hf => ⟨o, ?_, ?_⟩⟩
  · have e := evalDr_up hf hf₀
    have := (C45_derivative_of_body_partial lib_propsOk lib_plainForm hr hy hw hns f).2.2
    rw [e] at this
    exact this (by simp)
  · rcases hM with hM | ⟨hst, _⟩
    · exact hM
    · exact absurd hst hs

/-- … and otherwise a 1×1 matrix is returned. -/
theorem C45_handed_on {h : Heap ClassDef Par Arr Jac} (hr : LReach lib L h) {y w : Id} (hy : L.owners y = [])
    (hw : L.owners w = []) {vw : Arr} (hv : Means lib (applied lib L h.graph) (.r w) (.ok vw)) (hc : PassChain (applied lib L h.graph) y w)
    (hyw : y ≠ w) {f : ℕ} {o : Option Jac} (hd : (drWrtL lib L f y w h).2 = .ok o) :
    ∃ vy M, HasJacobian (applied lib L h.graph) y w vy vw M ∧ UpToUnit (applied lib L h.graph) w y o vy.size vw.size M := by
  have hns : (h.graph w).cls.permute = false := by have := hc.wrt; rwa [applied_cls] at this
  exact jacobian_pass hc hv hyw ((C45_derivative_of_body_partial lib_propsOk lib_plainForm hr hy hw hns f).1 o hd)

namespace LambdaDemo
open ADDemo

/-- `ChHandle(x=a)` -/
noncomputable def handleO (a : Id) : ObjSpec ClassDef Par := ⟨chHandle, [nmX], [.link nmX a]⟩
/-- `Ch(lambda a: …)` with the argument `a` and the result `r` -/
noncomputable def lambdaO (a r : Id) : ObjSpec ClassDef Par := ⟨chLambda, [nmA, nmResult], [.link nmA a, .link nmResult r]⟩

theorem handleO_fits {a i : ℕ} (h : a < i) : (handleO a).FitsAt i := by
  refine ⟨?_, fun hp => by cases hp⟩
  intro kw hm
  simp only [handleO, List.mem_singleton] at hm
  subst hm; exact ⟨by simp [handleO], h⟩

theorem lambdaO_fits {a r i : ℕ} (h : a < i) (h' : r < i) : (lambdaO a r).FitsAt i := by
  refine ⟨?_, fun hp => by cases hp⟩
  intro kw hm
  simp only [lambdaO, List.mem_cons, List.not_mem_nil, or_false] at hm
  rcases hm with rfl | rfl
  · exact ⟨by simp [lambdaO], h⟩
  · exact ⟨by simp [lambdaO], h'⟩

/-- `x = Ch([1,2]); F = Ch(lambda a: exp(a), a=Ch([3,4]))`; the objects are `x`, the first argument, the handle, the body, `F`. -/
noncomputable def expOf (a : Id) : List (ObjSpec ClassDef Par) := [leafO (vec2 1 2), leafO (vec2 3 4), handleO a, unO chExp 2, lambdaO a 3]
/-- `x = Ch([1,2]); F = Ch(lambda a: a, a=Ch([3,4]))`; the objects are `x`, the first argument, the handle, `F`. -/
noncomputable def same (a : Id) : List (ObjSpec ClassDef Par) := [leafO (vec2 1 2), leafO (vec2 3 4), handleO a, lambdaO a 2]

theorem expOf_fits {a : ℕ} (h : a < 2) : FitsFrom 0 (expOf a) :=
  ⟨leafO_fits _ _, leafO_fits _ _, handleO_fits h, unO_fits (by decide), lambdaO_fits (Nat.lt_trans h (by decide)) (by decide), trivial⟩
theorem same_fits {a : ℕ} (h : a < 2) : FitsFrom 0 (same a) :=
  ⟨leafO_fits _ _, leafO_fits _ _, handleO_fits h, lambdaO_fits (Nat.lt_trans h (by decide)) (by decide), trivial⟩

/-- What the lambdas of the two programs are. -/
def lamOf (F : Id) (body : List Id) : Lam := Lam.empty.step (C := ClassDef) (T := Par) (.lambda F [(nmA, 2)] body)

theorem expOf_links {q : Id} {k : Name} {c : Id} (hq : (buildGraph lib (expOf 1) q).dterms k = some c) (hc : c ∈ [2, 3]) : q = 3 ∨ q = 4 := by
  rcases q with _ | _ | _ | _ | _ | q
  · simp [buildGraph, expOf, ObjSpec.node, leafO, GNode.assign] at hq
  · simp [buildGraph, expOf, ObjSpec.node, leafO, GNode.assign] at hq
  · simp [buildGraph, expOf, ObjSpec.node, handleO, GNode.assign] at hq
    rw [← hq.2] at hc; simp at hc
  · exact Or.inl rfl
  · exact Or.inr rfl
  · simp [buildGraph, expOf] at hq

theorem same_links {q : Id} {k : Name} {c : Id} (hq : (buildGraph lib (same 1) q).dterms k = some c) (hc : c ∈ [2]) : q = 3 := by
  rcases q with _ | _ | _ | _ | q
  · simp [buildGraph, same, ObjSpec.node, leafO, GNode.assign] at hq
  · simp [buildGraph, same, ObjSpec.node, leafO, GNode.assign] at hq
  · simp [buildGraph, same, ObjSpec.node, handleO, GNode.assign] at hq
    rw [← hq.2] at hc; simp at hc
  · rfl
  · simp [buildGraph, same] at hq

/-- The program: make the objects, then the lambda, read it, then `F.a = x`. -/
theorem state {os os' : List (ObjSpec ClassDef Par)} {F : Id} {body : List Id} (hf : FitsFrom 0 os) (hF : F < os.length) (hFb : F ∉ body)
    (h0 : (0 : Id) ∉ body) (hok : ∀ (h : Heap ClassDef Par Arr Jac), h.graph = buildGraph lib os → (∀ j : ℕ, (h.node j).alive = decide (j < os.length)) →
      LamOk lib Lam.empty h F [(nmA, 2)] body)
    (hx : (buildGraph lib os 2).dterms nmX = (buildGraph lib os F).dterms nmA)
    (happ : appliedTo lib (buildGraph lib os) F nmA 2 0 = buildGraph lib os') (reads : ℕ) :
    ∃ h, LReach lib (lamOf F body) h ∧ (lamOf F body).owners F = [] ∧ (lamOf F body).owners 0 = [] ∧
      applied lib (lamOf F body) h.graph = buildGraph lib os' := by
  obtain ⟨h, hr, hs, hn, ha, hg⟩ := lreach_build (s := lib) os (fun i o ho => by have := (hf.get ho).1; rwa [Nat.zero_add] at this) os.length (Nat.le_refl _)
  rw [List.take_length] at hg
  have hr1 : LReach lib (lamOf F body) h := LReach.step (.lambda F [(nmA, 2)] body) hr (hok h hg ha)
  have how : ∀ j, j ∉ body → (lamOf F body).owners j = [] := by
    intro j hj; simp [lamOf, Lam.step, hj, Lam.empty]
  have hg1 : applied lib (lamOf F body) h.graph = buildGraph lib os := by
    rw [hg]
    funext j
    by_cases hj : j = 2
    · subst hj
      rw [applied_some (F := F) (a := nmA) (by simp [lamOf, Lam.step])]
      have : (fun k => if k = lib.xname then (buildGraph lib os F).dterms nmA else (buildGraph lib os 2).dterms k) = (buildGraph lib os 2).dterms := by
        funext k
        split
        · rename_i hk; rw [hk, ← hx]
        · rfl
      rw [this]
    · rw [applied_none (by simp [lamOf, Lam.step, Lam.empty, Ne.symm hj])]
  have hF0 := how F hFb
  have h00 := how 0 h0
  have hal : ((readL lib (lamOf F body) reads (.r F) h).1.node 0).alive = true ∧
      applied lib (lamOf F body) (readL lib (lamOf F body) reads (.r F) h).1.graph = buildGraph lib os := by
    obtain ⟨S, hl⟩ := lreach_inv lib_propsOk hr1
    obtain ⟨_, _, _, h4, h5, _⟩ := readL_sim_true hl.encG reads (.r F) S (LInv.free_ok hF0) h S (fun _ _ h => h) hl rfl
    refine ⟨?_, h4.trans hg1⟩
    rw [h5, ha]
    exact decide_eq_true (Nat.lt_of_le_of_lt (Nat.zero_le _) hF)
  have hr2 : LReach lib (lamOf F body) (readL lib (lamOf F body) reads (.r F) h).1 := by
    have := LReach.step (.readR reads F) hr1 (by exact hF0)
    simp only [stepL, Lam.step] at this
    rw [if_pos (by rw [ha]; exact decide_eq_true hF)] at this
    exact this
  have hr3 : LReach lib (lamOf F body) _ := LReach.step (.link F nmA 0) hr2 (by exact ⟨hF0, h00⟩)
  refine ⟨_, hr3, hF0, h00, ?_⟩
  show applied lib (lamOf F body) (stepL lib (lamOf F body) (.link F nmA 0) _).graph = _
  rw [applied_link (hd := 2) lib_propsOk hr2 hF0 (by simp [lamOf, Lam.step]) hal.1, hal.2, happ]

theorem expOf_state : ∃ h, LReach lib (lamOf 4 [2, 3]) h ∧ (lamOf 4 [2, 3]).owners 4 = [] ∧ (lamOf 4 [2, 3]).owners 0 = [] ∧
    applied lib (lamOf 4 [2, 3]) h.graph = buildGraph lib (expOf 0) := by
  refine state (os := expOf 1) (expOf_fits (by decide)) (by simp [expOf]) (by decide) (by decide) ?_ rfl ?_ 9
  · intro h hg ha
    have al : ∀ j : ℕ, j < 5 → (h.node j).alive = true := fun j hj => by rw [ha]; exact decide_eq_true hj
    refine ⟨rfl, al 4 (by decide), rfl, fun j => by simp [Lam.empty], by decide, by simp, by simp, by simp, fun _ _ => ⟨rfl, rfl⟩, ?_, ?_, ?_, ?_, ?_, ?_⟩
    · intro p hp
      simp only [List.mem_singleton] at hp
      subst hp
      rw [hg]
      exact ⟨rfl, fun _ => rfl, by simp [buildGraph, expOf, ObjSpec.node, handleO, GNode.assign]⟩
    · intro q; rw [hg]; rfl
    · intro p hp
      simp only [List.mem_singleton] at hp
      subst hp
      rw [hg]
      exact ⟨1, rfl, rfl, by decide⟩
    · intro j hj
      simp only [List.mem_cons, List.not_mem_nil, or_false] at hj
      rcases hj with rfl | rfl
      · exact al 2 (by decide)
      · exact al 3 (by decide)
    · intro q k c hq hc
      rw [hg] at hq
      rcases expOf_links hq hc with rfl | rfl
      · exact .inl (by simp)
      · exact .inr rfl
    · intro K _ p hp; simp [Lam.empty] at hp
  · funext j
    rcases j with _ | _ | _ | _ | _ | j <;>
      simp [appliedTo, buildGraph, expOf, ObjSpec.node, leafO, handleO, unO, lambdaO, GNode.assign]
    · funext k; split <;> rfl
    · funext k; split
      · subst_vars; simp
      · simp

theorem same_state : ∃ h, LReach lib (lamOf 3 [2]) h ∧ (lamOf 3 [2]).owners 3 = [] ∧ (lamOf 3 [2]).owners 0 = [] ∧
    applied lib (lamOf 3 [2]) h.graph = buildGraph lib (same 0) := by
  refine state (os := same 1) (same_fits (by decide)) (by simp [same]) (by decide) (by decide) ?_ rfl ?_ 9
  · intro h hg ha
    have al : ∀ j : ℕ, j < 4 → (h.node j).alive = true := fun j hj => by rw [ha]; exact decide_eq_true hj
    refine ⟨rfl, al 3 (by decide), rfl, fun j => by simp [Lam.empty], by decide, by simp, by simp, by simp, fun _ _ => ⟨rfl, rfl⟩, ?_, ?_, ?_, ?_, ?_, ?_⟩
    · intro p hp
      simp only [List.mem_singleton] at hp
      subst hp
      rw [hg]
      exact ⟨rfl, fun _ => rfl, by simp [buildGraph, same, ObjSpec.node, handleO, GNode.assign]⟩
    · intro q; rw [hg]; rfl
    · intro p hp
      simp only [List.mem_singleton] at hp
      subst hp
      rw [hg]
      exact ⟨1, rfl, rfl, by decide⟩
    · intro j hj
      simp only [List.mem_singleton] at hj
      subst hj
      exact al 2 (by decide)
    · intro q k c hq hc
      rw [hg] at hq
      exact .inr (same_links hq hc)
    · intro K _ p hp; simp [Lam.empty] at hp
  · funext j
    rcases j with _ | _ | _ | _ | j <;>
      simp [appliedTo, buildGraph, same, ObjSpec.node, leafO, handleO, lambdaO, GNode.assign]
    · funext k; split <;> rfl
    · funext k; split
      · subst_vars; simp
      · simp

theorem expOf_handle : HandsOn (buildGraph lib (expOf 0)) 2 0 := by
  refine ⟨⟨nmX, rfl, rfl, ?_⟩, rfl, rfl⟩
  intro k' q hk hq
  simp [buildGraph, expOf, ObjSpec.node, handleO, GNode.assign] at hq
  exact absurd hq.1 hk

theorem expOf_lambda : HandsOn (buildGraph lib (expOf 0)) 4 3 := by
  refine ⟨⟨nmResult, rfl, rfl, ?_⟩, rfl, rfl⟩
  intro k' q hk hq hr
  simp [buildGraph, expOf, ObjSpec.node, lambdaO, GNode.assign, hk] at hq
  rw [← hq.2] at hr
  have := (expOf_fits (a := 0) (by decide)).le hr
  exact absurd this (by decide)

/-- The values in the first program. -/
theorem expOf_values : Means lib (buildGraph lib (expOf 0)) (.r 0) (.ok (vec2 1 2)) ∧ Exactly (buildGraph lib (expOf 0)) 0 ∧
    Exactly (buildGraph lib (expOf 0)) 1 ∧ Means lib (buildGraph lib (expOf 0)) (.r 2) (.ok (vec2 1 2)) ∧
    Exactly (buildGraph lib (expOf 0)) 3 ∧ Means lib (buildGraph lib (expOf 0)) (.r 4) (.ok (mapVal Real.exp (vec2 1 2))) := by
  have h0 := leaf_means (g := buildGraph lib (expOf 0)) (i := 0) (v := vec2 1 2) rfl (by simp [vec2])
  have h1 := leaf_means (g := buildGraph lib (expOf 0)) (i := 1) (v := vec2 3 4) rfl (by simp [vec2])
  have h2 := means_pass expOf_handle h0.1
  have h3 := un_means (g := buildGraph lib (expOf 0)) (i := 3) (a := 2) (c := chExp) rfl h2
    (exact_unary _ (Or.inl ⟨2, [], rfl, by decide⟩) (fun _ _ => Real.hasDerivAt_exp _))
  exact ⟨h0.1, h0.2, h1.2, h2, h3.2, means_pass expOf_lambda h3.1⟩

theorem expOf_chain : PassChain (buildGraph lib (expOf 0)) 4 0 := by
  have hf := expOf_fits (a := 0) (by decide)
  obtain ⟨h0, _, h1, h2, h3, h4⟩ := expOf_values
  refine ⟨fun i _ => hf.acyclic i, rfl, ?_, fun i k c hk => (hf.link hk).1, ?_⟩
  · intro i _
    rcases i with _ | _ | _ | _ | _ | i
    · exact List.nodup_nil
    · exact List.nodup_nil
    · exact List.nodup_singleton nmX
    · exact List.nodup_singleton nmA
    · show [nmA, nmResult].Nodup; decide
    · exact List.nodup_nil
  · intro i hi hi0
    have hle := hf.le hi
    rcases i with _ | _ | _ | _ | _ | i
    · exact absurd rfl hi0
    · exact .inr ⟨h1.correct 0, (fun k k' p hk => by cases hk), (fun k p hk => by cases hk)⟩
    · exact .inl ⟨0, _, expOf_handle, h2⟩
    · refine .inr ⟨h3.correct 0, ?_, ?_⟩
      · intro k k' p hk hk' _ _
        simp [buildGraph, expOf, ObjSpec.node, unO, GNode.assign] at hk hk'
        rw [hk.1, hk'.1]
      · intro k p hk hp
        simp [buildGraph, expOf, ObjSpec.node, unO, GNode.assign] at hk
        rw [← hk.2] at hp; cases hp
    · exact .inl ⟨3, _, expOf_lambda, h4⟩
    · exact absurd hle (by show ¬ (i + 5 ≤ 4); omega)

theorem chPass_inj {k k' : Name} (h : chPass k = chPass k') : k = k' := by
  have := congrArg ClassDef.r h
  simp only [chPass, Prog.child.injEq] at this
  exact this.1

theorem exp_not_pass (k : Name) : chExp ≠ chPass k := by
  intro h
  have := congrFun (congrFun (congrArg ClassDef.dr h) false) [nmA]
  simp only [chPass] at this
  split at this <;> simp [chExp, chUnary] at this

theorem expOf_not_straight : ¬ Straight (buildGraph lib (expOf 0)) 0 4 := by
  intro h
  have h4 : ∀ p, HandsOn (buildGraph lib (expOf 0)) 4 p → p = 3 := by
    rintro p ⟨⟨k, hc, hk, _⟩, _, _⟩
    have : k = nmResult := (chPass_inj (k := nmResult) (k' := k) hc).symm
    subst this
    have e : some 3 = some p := hk
    injection e with e; exact e.symm
  have h3 : ∀ p, ¬ HandsOn (buildGraph lib (expOf 0)) 3 p := by
    rintro p ⟨⟨k, hc, _, _⟩, _, _⟩
    exact exp_not_pass k hc
  cases h with
  | here h => exact absurd (h4 0 h) (by decide)
  | next h hs =>
    have := h4 _ h
    subst this
    cases hs with
    | here h => exact h3 _ h
    | next h _ => exact h3 _ h

/-- The hypotheses are met by `F = Ch(lambda a: exp(a))` after a read with another argument and `F.a = x`; its value is `exp(x)`, and
`F.dr_wrt(x)` returns the derivative. -/
example : ∃ h, LReach lib (lamOf 4 [2, 3]) h ∧ (∃ f, (readL lib (lamOf 4 [2, 3]) f (.r 4) h).2 = .ok (mapVal Real.exp (vec2 1 2))) ∧
    ∃ vy M, HasJacobian (applied lib (lamOf 4 [2, 3]) h.graph) 4 0 vy (vec2 1 2) M ∧
      ∃ f₀, ∀ f ≥ f₀, ∃ o, (drWrtL lib (lamOf 4 [2, 3]) f 4 0 h).2 = .ok o ∧ num.RepO o vy.size 2 M := by
  obtain ⟨h, hr, hF, h0, hg⟩ := expOf_state
  refine ⟨h, hr, ?_, ?_⟩
  · obtain ⟨_, f, hf⟩ := expOf_values.2.2.2.2.2
    have := (C45_value_of_body_partial lib_propsOk hr hF f).2.2
    rw [hg, hf] at this
    exact ⟨f, this (by simp)⟩
  · refine C45_dr_returns_partial (w := 0) hr hF h0 ?_ ?_ (by decide) ?_ (by simp [vec2, Arr.size]) ?_ ?_ ?_ <;> rw [hg]
    · exact expOf_values.1
    · exact expOf_chain
    · exact expOf_not_straight
    · have hf := expOf_fits (a := 0) (by decide)
      have : ∀ i : ℕ, Acc (fun a b => Uses (buildGraph lib (expOf 0)) b a) i := by
        intro i
        induction i using Nat.strong_induction_on with
        | _ i ih => exact ⟨_, fun j hj => ih j (hf.lt hj)⟩
      exact this 4
    · intro i hi hi0
      obtain ⟨_, h0, h1, h2, h3, h4⟩ := expOf_values
      have hle := (expOf_fits (a := 0) (by decide)).le hi
      rcases i with _ | _ | _ | _ | _ | i
      · exact absurd rfl hi0
      · exact .inr (h1.for 0)
      · exact .inl ⟨0, expOf_handle⟩
      · exact .inr (h3.for 0)
      · exact .inl ⟨3, expOf_lambda⟩
      · exact absurd hle (by show ¬ (i + 5 ≤ 4); omega)
    · intro j hj hp
      exfalso
      rcases j with _ | _ | _ | _ | _ | j <;> cases hp

theorem same_handle : HandsOn (buildGraph lib (same 0)) 2 0 := by
  refine ⟨⟨nmX, rfl, rfl, ?_⟩, rfl, rfl⟩
  intro k' q hk hq
  simp [buildGraph, same, ObjSpec.node, handleO, GNode.assign] at hq
  exact absurd hq.1 hk

theorem same_lambda : HandsOn (buildGraph lib (same 0)) 3 2 := by
  refine ⟨⟨nmResult, rfl, rfl, ?_⟩, rfl, rfl⟩
  intro k' q hk hq hr
  simp [buildGraph, same, ObjSpec.node, lambdaO, GNode.assign, hk] at hq
  rw [← hq.2] at hr
  have := (same_fits (a := 0) (by decide)).le hr
  exact absurd this (by decide)

theorem same_values : Means lib (buildGraph lib (same 0)) (.r 0) (.ok (vec2 1 2)) ∧ Exactly (buildGraph lib (same 0)) 1 ∧
    Means lib (buildGraph lib (same 0)) (.r 2) (.ok (vec2 1 2)) ∧ Means lib (buildGraph lib (same 0)) (.r 3) (.ok (vec2 1 2)) := by
  have h0 := leaf_means (g := buildGraph lib (same 0)) (i := 0) (v := vec2 1 2) rfl (by simp [vec2])
  have h1 := leaf_means (g := buildGraph lib (same 0)) (i := 1) (v := vec2 3 4) rfl (by simp [vec2])
  have h2 := means_pass same_handle h0.1
  exact ⟨h0.1, h1.2, h2, means_pass same_lambda h2⟩

theorem same_chain : PassChain (buildGraph lib (same 0)) 3 0 := by
  have hf := same_fits (a := 0) (by decide)
  obtain ⟨h0, h1, h2, h3⟩ := same_values
  refine ⟨fun i _ => hf.acyclic i, rfl, ?_, fun i k c hk => (hf.link hk).1, ?_⟩
  · intro i _
    rcases i with _ | _ | _ | _ | i
    · exact List.nodup_nil
    · exact List.nodup_nil
    · exact List.nodup_singleton nmX
    · show [nmA, nmResult].Nodup; decide
    · exact List.nodup_nil
  · intro i hi hi0
    have hle := hf.le hi
    rcases i with _ | _ | _ | _ | i
    · exact absurd rfl hi0
    · exact .inr ⟨h1.correct 0, (fun k k' p hk => by cases hk), (fun k p hk => by cases hk)⟩
    · exact .inl ⟨0, _, same_handle, h2⟩
    · exact .inl ⟨2, _, same_lambda, h3⟩
    · exact absurd hle (by show ¬ (i + 4 ≤ 3); omega)

end LambdaDemo

open LambdaDemo ADDemo in
/-- Bug: `F = Ch(lambda a: a); F.a = Ch([1,2]); F.dr_wrt(F.a)` is a 1×1 matrix, not the identity of size 2. -/
theorem C45_refuted : ¬ C45_full := by
  intro hfull
  obtain ⟨h, hr, hF, h0, hg⟩ := same_state
  have hf := same_fits (a := 0) (by decide)
  have hacc : ∀ i : ℕ, Acc (fun a b => Uses (buildGraph lib (same 0)) b a) i := by
    intro i
    induction i using Nat.strong_induction_on with
    | _ i ih => exact ⟨_, fun j hj => ih j (hf.lt hj)⟩
  obtain ⟨o, ho⟩ := dr_returns_pass (w := 0) (vw := vec2 1 2) (hacc 3) same_chain same_values.1 (by simp [vec2, Arr.size]) (by
      intro i hi hi0
      have hle := hf.le hi
      rcases i with _ | _ | _ | _ | i
      · exact absurd rfl hi0
      · exact .inr (same_values.2.1.for 0)
      · exact .inl ⟨0, same_handle⟩
      · exact .inl ⟨2, same_lambda⟩
      · exact absurd hle (by show ¬ (i + 4 ≤ 3); omega)) (by
      intro j _ hp
      exfalso
      rcases j with _ | _ | _ | _ | j <;> cases hp) (by decide)
  obtain ⟨_, f, hf⟩ := ho
  have hd : (drWrtL lib (lamOf 3 [2]) f 3 0 h).2 = .ok o := by
    have hns : (h.graph 0).cls.permute = false := by
      have : (applied lib (lamOf 3 [2]) h.graph 0).cls.permute = false := by rw [hg]; rfl
      rwa [applied_cls] at this
    have := (C45_derivative_of_body_partial lib_propsOk lib_plainForm hr hF h0 hns f).2.2
    rw [hg, hf] at this
    exact this (by simp)
  have ho : o = some Jac.unit := by
    cases f with
    | zero => cases hf
    | succ f =>
      have hdecl : ∀ i k c, ((buildGraph lib (same 0)) i).dterms k = some c → k ∈ ((buildGraph lib (same 0)) i).dnames :=
        fun i k c hk => ((same_fits (a := 0) (by decide)).link hk).1
      rcases pass_dr hdecl (by show [nmA, nmResult].Nodup; decide) rfl same_lambda hf with ⟨e, _⟩ | ⟨_, o', ho', rfl⟩
      · exact absurd e (by decide)
      · cases f with
        | zero => cases ho'
        | succ f =>
          rcases pass_dr (i := 2) hdecl (List.nodup_singleton nmX) rfl same_handle ho' with ⟨_, rfl⟩ | ⟨e, _⟩
          · exact congrArg some Jac.scale_one_unit
          · exact absurd rfl e
  obtain ⟨vy, M, hJ, hM⟩ := (hfull _ h hr 3 hF).2 f 0 (vec2 1 2) o h0 (by decide) (by rw [hg]; exact same_values.1)
    (by rw [hg]; exact same_chain) hd
  rw [ho] at hM
  have := hM.2.1
  simp [vec2, Arr.size] at this

end Chumpy
