import Verif.AD.Expr
/-!
# Evaluating `dr_wrt` step by step

Rules for what the uncached chain rule computes, used on concrete graphs.
-/
namespace Chumpy
variable {C T V D : Type} {s : Sig C T V D} {g : Graph C T}

/-- `compute_dr_wrt` of `i` about `p` returns `d`. -/
def CompIs (s : Sig C T V D) (g : Graph C T) (i p : Id) (d : Option D) : Prop := ∃ f, evalCompDr s g f i p = .ok d
/-- `_compute_dr_wrt_sliced` of `i` about `p` returns `d`. -/
def SlicedIs (s : Sig C T V D) (g : Graph C T) (i p : Id) (d : Option D) : Prop := ∃ f, evalSliced s g f i p = .ok d
/-- The loop over the names `ks` extends the list `acc` to `ds`. -/
def TermsIs (s : Sig C T V D) (g : Graph C T) (i w : Id) (ks : List Name) (acc ds : List D) : Prop :=
  ∃ f, evalTerms s g f i w (fun p => evalDr s g f p w) ks acc = .ok ds

theorem evalCompDr_up {f f' : ℕ} {i p : Id} {o : Option D} (hf : f ≤ f') (h : evalCompDr s g f i p = .ok o) :
    evalCompDr s g f' i p = .ok o := by
  have := evalCompDr_mono s g hf i p
  rw [Le, h] at this; exact this (by simp)
theorem evalSliced_up {f f' : ℕ} {i p : Id} {o : Option D} (hf : f ≤ f') (h : evalSliced s g f i p = .ok o) :
    evalSliced s g f' i p = .ok o := by
  have := evalSliced_mono s g hf i p
  rw [Le, h] at this; exact this (by simp)
theorem evalDr_up {f f' : ℕ} {i p : Id} {o : Option D} (hf : f ≤ f') (h : evalDr s g f i p = .ok o) :
    evalDr s g f' i p = .ok o := by
  have := evalDr_mono s g hf i p
  rw [Le, h] at this; exact this (by simp)
theorem evalTerms_up {f f' : ℕ} {i w : Id} {ks : List Name} {acc ds : List D} (hf : f ≤ f')
    (h : evalTerms s g f i w (fun p => evalDr s g f p w) ks acc = .ok ds) :
    evalTerms s g f' i w (fun p => evalDr s g f' p w) ks acc = .ok ds := by
  have := evalTerms_mono s g hf i w (fun p => evalDr_mono s g hf p w) ks acc
  rw [Le, h] at this; exact this (by simp)

theorem CompIs.unique {i p : Id} {d d' : Option D} (h : CompIs s g i p d) (h' : CompIs s g i p d') : d = d' := by
  obtain ⟨f, hf⟩ := h
  obtain ⟨f', hf'⟩ := h'
  have e := evalCompDr_up (Nat.le_max_left f f') hf
  rw [evalCompDr_up (Nat.le_max_right f f') hf'] at e
  injection e with e; exact e.symm

theorem SlicedIs.unique {i p : Id} {d d' : Option D} (h : SlicedIs s g i p d) (h' : SlicedIs s g i p d') : d = d' := by
  obtain ⟨f, hf⟩ := h
  obtain ⟨f', hf'⟩ := h'
  have e := evalSliced_up (Nat.le_max_left f f') hf
  rw [evalSliced_up (Nat.le_max_right f f') hf'] at e
  injection e with e; exact e.symm

theorem SlicedIs.some {i p : Id} {d : D} (h : CompIs s g i p (some d)) : SlicedIs s g i p (some d) := by
  obtain ⟨f, hf⟩ := h
  exact ⟨f, by unfold evalSliced; rw [hf]⟩

theorem SlicedIs.none {i p : Id} (h : CompIs s g i p none) (hp : s.isPermute (g p).cls = false) : SlicedIs s g i p none := by
  obtain ⟨f, hf⟩ := h
  refine ⟨f + 1, ?_⟩
  unfold evalSliced; rw [evalCompDr_up (Nat.le_succ f) hf]
  simp only [evalSlice]; rw [if_neg (by rw [hp]; simp)]

theorem TermsIs.nil (i w : Id) (acc : List D) : TermsIs s g i w [] acc acc := ⟨0, rfl⟩

theorem TermsIs.unset {i w : Id} {k : Name} {ks : List Name} {acc ds : List D} (hk : (g i).dterms k = Option.none)
    (h : TermsIs s g i w ks acc ds) : TermsIs s g i w (k :: ks) acc ds := by
  obtain ⟨f, hf⟩ := h
  exact ⟨f, by simp only [evalTerms, hk]; exact hf⟩

theorem TermsIs.wrt {i w : Id} {k : Name} {ks : List Name} {acc ds : List D} (hk : (g i).dterms k = Option.some w)
    (h : TermsIs s g i w ks acc ds) : TermsIs s g i w (k :: ks) acc ds := by
  obtain ⟨f, hf⟩ := h
  exact ⟨f, by simp only [evalTerms, hk, if_true]; exact hf⟩

theorem TermsIs.none {i w p : Id} {k : Name} {ks : List Name} {acc ds : List D} (hk : (g i).dterms k = Option.some p) (hp : p ≠ w)
    (hd : MeansDr s g p w (.ok Option.none))
    (h : TermsIs s g i w ks acc ds) : TermsIs s g i w (k :: ks) acc ds := by
  obtain ⟨f, hf⟩ := h
  obtain ⟨_, f2, hf2⟩ := hd
  refine ⟨max f f2, ?_⟩
  simp only [evalTerms, hk, if_neg hp]
  rw [evalDr_up (Nat.le_max_right f f2) hf2]
  exact evalTerms_up (Nat.le_max_left f f2) hf

theorem TermsIs.some {i w p : Id} {k : Name} {ks : List Name} {acc ds : List D} {d d2 x : D} (hk : (g i).dterms k = Option.some p)
    (hp : p ≠ w) (hd : MeansDr s g p w (.ok (Option.some d2))) (hs : SlicedIs s g i p (Option.some d)) (hx : s.superdot d d2 = .ok x)
    (h : TermsIs s g i w ks (acc ++ [x]) ds) : TermsIs s g i w (k :: ks) acc ds := by
  obtain ⟨f, hf⟩ := h
  obtain ⟨_, f2, hf2⟩ := hd
  obtain ⟨f3, hf3⟩ := hs
  refine ⟨max f (max f2 f3), ?_⟩
  simp only [evalTerms, hk, if_neg hp]
  rw [evalDr_up ((Nat.le_max_left f2 f3).trans (Nat.le_max_right f _)) hf2]
  dsimp only
  rw [evalSliced_up ((Nat.le_max_right f2 f3).trans (Nat.le_max_right f _)) hf3]
  dsimp only
  rw [hx]
  exact evalTerms_up (Nat.le_max_left f _) hf

theorem drIs {i w : Id} {direct : Option D} {ds : List D} {r : Option D} (hs : SlicedIs s g i w direct)
    (ht : TermsIs s g i w (g i).dnames direct.toList ds) (hr : sumD s ds = .ok r) :
    MeansDr s g i w (.ok (r.map fun d => s.outForm (g i).makeDense (g i).makeSparse (s.finish d))) := by
  obtain ⟨f1, hf1⟩ := hs
  obtain ⟨f2, hf2⟩ := ht
  refine ⟨by simp, max f1 f2 + 1, ?_⟩
  simp only [evalDr]
  rw [evalSliced_up (Nat.le_max_left f1 f2) hf1]
  dsimp only
  rw [evalTerms_up (Nat.le_max_right f1 f2) hf2]
  dsimp only
  rw [hr]

/-- `dr_wrt` raises because adding up raises. -/
theorem drRaises {i w : Id} {direct : Option D} {ds : List D} {e : Err} (hs : SlicedIs s g i w direct)
    (ht : TermsIs s g i w (g i).dnames direct.toList ds) (hr : sumD s ds = .error e) (he : e ≠ .fuel) :
    MeansDr s g i w (.error e) := by
  obtain ⟨f1, hf1⟩ := hs
  obtain ⟨f2, hf2⟩ := ht
  refine ⟨by intro h; injection h with h; exact he h, max f1 f2 + 1, ?_⟩
  simp only [evalDr]
  rw [evalSliced_up (Nat.le_max_left f1 f2) hf1]
  dsimp only
  rw [evalTerms_up (Nat.le_max_right f1 f2) hf2]
  dsimp only
  rw [hr]

/-- An object that does not mention `w` itself. -/
theorem compIs_none {i p : Id} (hl : s.LocalDr) (hip : i ≠ p) (hn : (g i).namesOf p = []) : CompIs s g i p none := by
  refine ⟨0, ?_⟩
  have hb : (i == p) = false := by simpa using hip
  unfold evalCompDr
  rw [hb, hn, hl]; rfl

/-- A leaf does not depend on anything else. -/
theorem leaf_none {g : Graph ClassDef Par} {i w : Id} {v : Arr} (h : g i = (leafO v).node) (hiw : i ≠ w)
    (hw : lib.isPermute (g w).cls = false) : MeansDr lib g i w (.ok none) := by
  have hn : (g i).namesOf w = [] := by rw [h]; rfl
  have hd : (g i).dnames = [] := by rw [h]; rfl
  exact drIs (r := none) (SlicedIs.none (compIs_none lib_localDr hiw hn) hw) (by rw [hd]; exact TermsIs.nil _ _ _) rfl

theorem compIs_bin {g : Graph ClassDef Par} {i a b p : Id} {c : ClassDef} {u v out : Arr} {S : List Name} {d : Option Jac}
    (h : g i = (binO c a b).node) (hu : Means lib g (.r a) (.ok u)) (hv : Means lib g (.r b) (.ok v))
    (ho : Means lib g (.r i) (.ok out)) (hip : i ≠ p) (hS : (binO c a b).node.namesOf p = S)
    (hd : ReturnsDr lib c (fun _ => none) (env2 u v) out S d) : CompIs lib g i p d := by
  have hc : (g i).cls = c := by rw [h]; rfl
  have ht : (g i).terms = fun _ => none := by rw [h]; rfl
  have ha : (g i).dterms nmA = some a := by rw [h]; rfl
  have hb : (g i).dterms nmB = some b := by rw [h]; rfl
  rw [← hS, ← h, ← ht, ← hc] at hd
  refine evalCompDr_of_returnsDr hip ho ?_ hd
  intro k x hx
  unfold env2 at hx
  split at hx
  · next e => cases hx; subst e; exact ⟨a, ha, hu⟩
  · split at hx
    · next e => cases hx; subst e; exact ⟨b, hb, hv⟩
    · cases hx

theorem compIs_un {g : Graph ClassDef Par} {i a p : Id} {c : ClassDef} {u out : Arr} {S : List Name} {d : Option Jac}
    (h : g i = (unO c a).node) (hu : Means lib g (.r a) (.ok u))
    (ho : Means lib g (.r i) (.ok out)) (hip : i ≠ p) (hS : (unO c a).node.namesOf p = S)
    (hd : ReturnsDr lib c (fun _ => none) (env1 u) out S d) : CompIs lib g i p d := by
  have hc : (g i).cls = c := by rw [h]; rfl
  have ht : (g i).terms = fun _ => none := by rw [h]; rfl
  have ha : (g i).dterms nmA = some a := by rw [h]; rfl
  rw [← hS, ← h, ← ht, ← hc] at hd
  refine evalCompDr_of_returnsDr hip ho ?_ hd
  intro k x hx
  unfold env1 at hx
  split at hx
  · next e => cases hx; subst e; exact ⟨a, ha, hu⟩
  · cases hx
end Chumpy
