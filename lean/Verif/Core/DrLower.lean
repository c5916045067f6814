import Verif.Core.DrCount
/-!
# Repeated derivative work

An object with exactly one parent never stores its derivatives (ch.py:820-821).  If that parent refers to it under two names,
every call of the parent's `dr_wrt` computes it twice.
-/
namespace Chumpy
variable {C T V D : Type} {s : Sig C T V D}

/-- Objects with exactly one parent keep the derivatives they have stored; the numbers of calls do not decrease. -/
structure Lone (h h' : Heap C T V D) : Prop where
  frame : RFrame h h'
  drs : ∀ j, (h.node j).parents.length = 1 → (h'.node j).drs = (h.node j).drs
  more : ∀ j p, h.ran j p ≤ h'.ran j p

theorem Lone.of {h h' : Heap C T V D} (f : RFrame h h') (q : Quiet h h') : Lone h h' :=
  ⟨f, fun j _ => q.drs j, fun j p => Nat.le_of_eq (q.ran j p).symm⟩

theorem lone_rel : ReadRel (Lone (C := C) (T := T) (V := V) (D := D)) where
  refl h := Lone.of (RFrame.refl h) (Quiet.refl h)
  trans {a b c} x y := ⟨rframe_rel.trans x.frame y.frame, fun j hj => (y.drs j (by rw [x.frame.parents]; exact hj)).trans (x.drs j hj),
    fun j p => Nat.le_trans (x.more j p) (y.more j p)⟩
  onChanged i h := Lone.of (rframe_rel.onChanged i h) (quiet_onChanged i h)
  storeR i v h := Lone.of (rframe_rel.storeR i v h) (quiet_storeR i v h)
  storeProp i p v h := Lone.of (rframe_rel.storeProp i p v h) (quiet_storeProp i p v h)
  storeDr i w d h := by
    refine ⟨rframe_rel.storeDr i w d h, fun j hj => ?_, fun j p => ?_⟩
    · unfold storeDr
      split
      · rfl
      · next hn =>
        simp only [Heap.modify]
        split
        · subst_vars; exact absurd (Or.inl hj) hn
        · rfl
    · unfold storeDr
      split <;> exact Nat.le_refl _
  nil {a b} r i hi := rframe_rel.nil r.frame i hi
  ranR i h hd hc := Lone.of (rframe_rel.ranR i h hd hc) (quiet_emit (by intro j p e; cases e) h)
  ranProp i p h hc := Lone.of (rframe_rel.ranProp i p h hc) (quiet_emit (by intro j p e; cases e) h)
  ranDr i w h hd := by
    refine ⟨rframe_rel.ranDr i w h hd, fun j _ => rfl, fun j p => ?_⟩
    show List.count _ h.log ≤ List.count _ (h.log ++ [Event.ranDr i w])
    rw [List.count_append]; exact Nat.le_add_right _ _

/-- A loop that ends without an exception has asked the object under its first name. -/
theorem drTerms_cons_ok {f : Nat} {i w p : Id} {x : Name} {ks : List Name} {acc : List D} {rec : Id → M C T V D (Option D)} {h : Heap C T V D}
    (hx : (h.node i).dterms x = some p) (hp : p ≠ w) (hok : (drTerms s f i w rec (x :: ks) acc h).2.isOk = true) :
    (rec p h).2.isOk = true ∧ ∃ h' acc', Lone (rec p h).1 h' ∧ drTerms s f i w rec (x :: ks) acc h = drTerms s f i w rec ks acc' h' := by
  revert hok
  simp only [drTerms, hx, if_neg hp, M.bind]
  rcases rec p h with ⟨h1, r⟩
  cases r with
  | error e => intro hok; cases hok
  | ok o =>
    cases o with
    | none => intro _; exact ⟨rfl, h1, acc, lone_rel.refl _, rfl⟩
    | some d2 =>
      dsimp only [M.bind]
      have l : Lone h1 (drSliced s f i p h1).1 := drSliced_pres lone_rel f i p h1
      rcases hy : drSliced s f i p h1 with ⟨h2, r2⟩
      rw [hy] at l
      cases r2 with
      | error e => intro hok; cases hok
      | ok o2 =>
        cases o2 with
        | none => intro _; exact ⟨rfl, h2, acc, l, rfl⟩
        | some d =>
          dsimp only [M.bind, M.lift]
          cases s.superdot d d2 with
          | error e => intro hok; cases hok
          | ok z => intro _; exact ⟨rfl, h2, acc ++ [z], l, rfl⟩

/-- A tower: object `k+1` refers to object `k` under the names `a` and `b` and to nothing else. -/
structure Tower (g : Graph C T) (par : Id → List (Id × List Name)) (a b : Name) (n : Nat) : Prop where
  names : ∀ k : Nat, k < n → (g (k + 1)).dnames = [a, b]
  left : ∀ k : Nat, k < n → (g (k + 1)).dterms a = some k
  right : ∀ k : Nat, k < n → (g (k + 1)).dterms b = some k
  lone : ∀ k : Nat, 0 < k → k < n → (par k).length = 1

variable {g : Graph C T} {par : Id → List (Id × List Name)} {a b : Name} {n : Nat}

/-- Whenever the derivative of object `k+1` with respect to object 0 is returned, and it was not stored, the local derivative of
object 1 has been computed at least `2^k` times. -/
theorem tower_lower (tw : Tower g par a b n) (hplain : s.isPermute (g (0 : Nat)).cls = false) (f : Nat) : ∀ (k : Nat), k < n → ∀ h : Heap C T V D,
    IsAt g par (0 : Nat) h → (∀ j : Nat, 0 < j → j ≤ k + 1 → (h.node j).drs (0 : Nat) = none) →
    (drWrt s f (k + 1 : Nat) (0 : Nat) h).2.isOk = true → h.ran (1 : Nat) (0 : Nat) + 2 ^ k ≤ (drWrt s f (k + 1 : Nat) (0 : Nat) h).1.ran (1 : Nat) (0 : Nat) := by
  induction f with
  | zero => intro k _ h _ _ hok; cases hok
  | succ f ih =>
    intro k hk h hh hn
    rw [drWrt, M.bind]
    have l1 : Lone h (callOnChanged (k + 1 : Nat) h).1 := lone_rel.onChanged _ h
    have q1 := quiet_onChanged (k + 1 : Nat) h
    rcases hx : callOnChanged (k + 1 : Nat) h with ⟨h1, r⟩
    rw [hx] at l1 q1
    dsimp only at l1 q1
    cases r with
    | error e => intro hok; cases hok
    | ok u =>
      dsimp only
      have hs : (h1.node (k + 1 : Nat)).drs (0 : Nat) = none := by rw [q1.drs]; exact hn _ (Nat.succ_pos k) (Nat.le_refl _)
      rw [hs]
      dsimp only [M.bind]
      have hh1 := hh.after l1.frame
      have oc := drSliced_one (s := s) f (k + 1 : Nat) (0 : Nat) h1 (by rw [hh1.graph]; exact hplain)
      have l2 : Lone h1 (drSliced s f (k + 1 : Nat) (0 : Nat) h1).1 := drSliced_pres lone_rel f _ _ h1
      rcases hy : drSliced s f (k + 1 : Nat) (0 : Nat) h1 with ⟨h2, r2⟩
      rw [hy] at oc l2
      dsimp only at oc l2
      have hh2 := hh1.after l2.frame
      cases r2 with
      | error e => intro hok; cases hok
      | ok direct =>
        dsimp only
        have hd : (h2.node (k + 1 : Nat)).dnames = [a, b] := by
          have := tw.names k hk
          rw [← hh2.graph] at this; exact this
        rw [hd]
        have loop : (drTerms s f (k + 1 : Nat) (0 : Nat) (fun p => drWrt s f p (0 : Nat)) [a, b] direct.toList h2).2.isOk = true →
            h.ran (1 : Nat) (0 : Nat) + 2 ^ k ≤ (drTerms s f (k + 1 : Nat) (0 : Nat) (fun p => drWrt s f p (0 : Nat)) [a, b] direct.toList h2).1.ran (1 : Nat) (0 : Nat) := by
          intro hok
          have r2' : h2.ran (1 : Nat) (0 : Nat) = h.ran (1 : Nat) (0 : Nat) + if (1 : Nat) = k + 1 ∧ (0 : Nat) = 0 then 1 else 0 := by
            rw [oc.ran, q1.ran]
          cases k with
          | zero =>
            have l3 : Lone h2 (drTerms s f (0 + 1 : Nat) (0 : Nat) (fun p => drWrt s f p (0 : Nat)) [a, b] direct.toList h2).1 :=
              drTerms_pres lone_rel f _ _ (fun p => drWrt_pres lone_rel f p _) [a, b] direct.toList h2
            have m3 := l3.more (1 : Nat) (0 : Nat)
            rw [if_pos ⟨rfl, rfl⟩] at r2'
            rw [Nat.pow_zero]
            exact Nat.le_trans (Nat.le_of_eq r2'.symm) m3
          | succ k =>
            have hne : (k + 1 : Nat) ≠ 0 := Nat.succ_ne_zero k
            have hlt : k + 1 < n := hk
            have none2 : ∀ j : Nat, 0 < j → j ≤ k + 1 → (h2.node j).drs (0 : Nat) = none := by
              intro j hj hjk
              rw [oc.drs, q1.drs]; exact hn j hj (Nat.le_succ_of_le hjk)
            have keep : ∀ {x y : Heap C T V D}, IsAt g par (0 : Nat) x → Lone x y → (∀ j : Nat, 0 < j → j ≤ k + 1 → (x.node j).drs (0 : Nat) = none) →
                ∀ j : Nat, 0 < j → j ≤ k + 1 → (y.node j).drs (0 : Nat) = none := by
              intro x y hx l hnone j hj hjk
              rw [l.drs j (by rw [hx.parents]; exact tw.lone j hj (Nat.lt_of_le_of_lt hjk hlt))]
              exact hnone j hj hjk
            have hk' : k < n := Nat.lt_of_succ_lt hlt
            obtain ⟨o1, h3, acc, l3, e3⟩ := drTerms_cons_ok (s := s) (f := f) (i := (k + 1 + 1 : Nat)) (w := (0 : Nat)) (x := a) (ks := [b]) (p := (k + 1 : Nat))
              (rec := fun p => drWrt s f p (0 : Nat)) (h := h2) (by have := tw.left (k + 1) hk; rw [← hh2.graph] at this; exact this) hne hok
            have l2' : Lone h2 (drWrt s f (k + 1 : Nat) (0 : Nat) h2).1 := drWrt_pres lone_rel f _ _ h2
            have l23 := lone_rel.trans l2' l3
            have hh3 := hh2.after l23.frame
            have c1 := ih k hk' h2 hh2 none2 o1
            rw [e3] at hok ⊢
            obtain ⟨o2, h4, acc', l4, e4⟩ := drTerms_cons_ok (s := s) (f := f) (i := (k + 1 + 1 : Nat)) (w := (0 : Nat)) (x := b) (ks := []) (p := (k + 1 : Nat))
              (rec := fun p => drWrt s f p (0 : Nat)) (h := h3) (by have := tw.right (k + 1) hk; rw [← hh3.graph] at this; exact this) hne hok
            have c2 := ih k hk' h3 hh3 (keep hh2 l23 none2) o2
            rw [e4]
            show _ ≤ h4.ran _ _
            have m3 := l3.more (1 : Nat) (0 : Nat)
            have m4 := l4.more (1 : Nat) (0 : Nat)
            rw [if_neg (by intro e; exact absurd e.1 (by omega))] at r2'
            rw [Nat.pow_succ]
            generalize 2 ^ k = z at c1 c2 ⊢
            have r2'' : h2.ran (1 : Nat) (0 : Nat) = h.ran (1 : Nat) (0 : Nat) := r2'
            rw [← r2'']
            generalize h2.ran (1 : Nat) (0 : Nat) = x2 at c1 ⊢
            generalize h3.ran (1 : Nat) (0 : Nat) = x3 at c2 m3
            generalize h4.ran (1 : Nat) (0 : Nat) = x4 at m4 ⊢
            omega
        rcases hz : drTerms s f (k + 1 : Nat) (0 : Nat) (fun p => drWrt s f p (0 : Nat)) [a, b] direct.toList h2 with ⟨h3, r3⟩
        rw [hz] at loop
        cases r3 with
        | error e => intro hok; cases hok
        | ok ds =>
          intro _
          have hr := loop rfl
          dsimp only [M.bind, M.lift]
          cases sumD s ds with
          | error e => exact hr
          | ok r =>
            dsimp only
            have := (lone_rel.storeDr (k + 1 : Nat) (0 : Nat) (r.map s.finish) h3).more (1 : Nat) (0 : Nat)
            rcases hw : storeDr (k + 1 : Nat) (0 : Nat) (r.map s.finish) h3 with ⟨h4, r4⟩
            rw [hw] at this
            cases r4 with
            | error e => exact Nat.le_trans hr this
            | ok u => exact Nat.le_trans hr this
end Chumpy
