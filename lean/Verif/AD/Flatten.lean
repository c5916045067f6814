import Verif.AD.Concat
import Verif.AD.Built
import Verif.Core.Indep
/-!
# `concatenate`, `vstack`, `dstack` (reordering.py:423-454)
-/
namespace Chumpy
open scoped BigOperators

/-! ## The code -/

/-- `[getattr(mtx, s) for s in mtx.dterms]` (reordering.py:429); an operand that is not set is an `AttributeError`. -/
def getKids (g : Graph ClassDef Par) (m : Id) : List Name → Except Err (List Id)
  | [] => .ok []
  | n :: ns =>
    match (g m).dterms n with
    | none => .error .attr
    | some c =>
      match getKids g m ns with
      | .ok l => .ok (c :: l)
      | .error e => .error e

/-- `isinstance(mtx, Concatenate) and mtx.axis == axis` (reordering.py:428). -/
def SameConcat (g : Graph ClassDef Par) (ax : ℤ) (m : Id) : Prop :=
  (g m).cls = chConcat (g m).dnames ∧ (g m).terms nmP = some (.int ax)

open Classical in
/-- `expand_concatenates` (reordering.py:423-432), a loop with a worklist; it need not end on a cyclic graph, hence the bound. -/
noncomputable def expandConcats (g : Graph ClassDef Par) (ax : ℤ) : ℕ → List Id → Except Err (List Id)
  | 0, _ => .error .fuel
  | _ + 1, [] => .ok []
  | f + 1, m :: ms =>
    if SameConcat g ax m then
      match getKids g m (g m).dnames with
      | .error e => .error e
      | .ok ks => expandConcats g ax f (ks ++ ms)
    else
      match expandConcats g ax f ms with
      | .error e => .error e
      | .ok l => .ok (m :: l)

/-- The names `m0`, `m1`, ... (reordering.py:441). -/
def concatNames (n : ℕ) : List Name := (List.range n).map nmM

/-- The new object (reordering.py:439-444).  Simplified: operands that are not chumpy objects are wrapped before. -/
noncomputable def concatO (ax : ℤ) (l : List Id) : ObjSpec ClassDef Par :=
  ⟨chConcat (concatNames l.length), concatNames l.length, (l.zipIdx.map fun p => KW.link (nmM p.2) p.1) ++ [.term nmP (.int ax)]⟩

/-- `concatenate(mtxs, axis)` (reordering.py:435-445). -/
noncomputable def concatenate (f : ℕ) (ax : ℤ) (mtxs : List Id) : M ClassDef Par Arr Jac Id := fun h =>
  match expandConcats h.graph ax f mtxs with
  | .error e => (h, .error e)
  | .ok l => newObj lib (concatO ax l).cls (concatO ax l).dnames false false (concatO ax l).kws h

/-- `AtleastNd(x=ary, ndims=d)` (reordering.py:327). -/
noncomputable def atleastO (d : ℕ) (a : Id) : ObjSpec ClassDef Par := ⟨chAtleast, [nmA], [.term nmNdims (.nat d), .link nmA a]⟩

/-- `[atleast_nd(d, m) for m in mtxs]` (reordering.py:451, 454). -/
noncomputable def atleastAll (d : ℕ) : List Id → M ClassDef Par Arr Jac (List Id)
  | [] => M.pure []
  | m :: ms => M.bind (newObj lib (atleastO d m).cls (atleastO d m).dnames false false (atleastO d m).kws) fun y =>
      M.bind (atleastAll d ms) fun ys => M.pure (y :: ys)

/-- `hstack` (reordering.py:447-448). -/
noncomputable def hstack (f : ℕ) (mtxs : List Id) : M ClassDef Par Arr Jac Id := concatenate f 1 mtxs
/-- `vstack` (reordering.py:450-451). -/
noncomputable def vstack (f : ℕ) (mtxs : List Id) : M ClassDef Par Arr Jac Id := M.bind (atleastAll 2 mtxs) (concatenate f 0)
/-- `dstack` (reordering.py:453-454). -/
noncomputable def dstack (f : ℕ) (mtxs : List Id) : M ClassDef Par Arr Jac Id := M.bind (atleastAll 3 mtxs) (concatenate f 2)

/-! ## Concatenating a concatenation -/

/-- From position `o` on, `out` holds the blocks `vs`. -/
def Blocks (i : ℕ) (out : Arr) : ℕ → List Arr → Prop
  | _, [] => True
  | o, v :: vs => (∀ c, InB v.shape c → out.at (placed i o c) = v.at c) ∧ Blocks i out (o + v.shape.getD i 0) vs

/-- The extent of the blocks `vs`. -/
def dims (i : ℕ) (vs : List Arr) : ℕ := (vs.map fun v => v.shape.getD i 0).sum

theorem blocks_append (i : ℕ) (out : Arr) : ∀ (o : ℕ) (us vs : List Arr),
    Blocks i out o (us ++ vs) ↔ Blocks i out o us ∧ Blocks i out (o + dims i us) vs
  | o, [], vs => by simp [Blocks, dims]
  | o, u :: us, vs => by
    have := blocks_append i out (o + u.shape.getD i 0) us vs
    simp only [List.cons_append, Blocks, this, dims, List.map_cons, List.sum_cons]
    rw [Nat.add_assoc, and_assoc]

theorem blocks_iff (i : ℕ) (out : Arr) : ∀ (o : ℕ) (vs : List Arr), Blocks i out o vs ↔
    ∀ (a : ℕ) (ha : a < vs.length) (c : List ℕ), InB vs[a].shape c →
      out.at (placed i (o + startOf i (vs.map Arr.shape) a) c) = vs[a].at c
  | o, [] => by simp [Blocks]
  | o, v :: vs => by
    simp only [Blocks, blocks_iff i out (o + v.shape.getD i 0) vs]
    constructor
    · rintro ⟨h1, h2⟩ a ha c hc
      cases a with
      | zero => simpa [startOf] using h1 c hc
      | succ a =>
        have := h2 a (by simpa using ha) c hc
        simpa [startOf, Nat.add_assoc] using this
    · intro h
      refine ⟨fun c hc => ?_, fun a ha c hc => ?_⟩
      · have := h 0 (by simp) c hc
        simpa [startOf] using this
      · have := h (a + 1) (by simpa using ha) c hc
        simpa [startOf, Nat.add_assoc] using this

theorem isConcat_iff {i : ℕ} {vs : List Arr} {out : Arr} :
    IsConcat i vs out ↔ Stacks i (vs.map Arr.shape) out.shape ∧ Blocks i out 0 vs := by
  rw [blocks_iff]
  simp only [Nat.zero_add]
  exact ⟨fun h => ⟨h.shapes, h.entry⟩, fun h => ⟨h.1, h.2⟩⟩

theorem placed_placed {i o o' : ℕ} {c : List ℕ} (hi : i < c.length) : placed i o (placed i o' c) = placed i (o + o') c := by
  unfold placed
  rw [List.set_set, getD_set0, if_pos ⟨rfl, hi⟩, Nat.add_assoc]

theorem stacks_inB {i : ℕ} {sh t c : List ℕ} {o : ℕ} (hi : i < sh.length) (hl : t.length = sh.length)
    (ho : ∀ j, j ≠ i → t.getD j 0 = sh.getD j 0) (hd : o + t.getD i 0 ≤ sh.getD i 0) (hc : InB t c) : InB sh (placed i o c) := by
  rw [inB_iff] at hc ⊢
  refine ⟨by simp [placed, hc.1, hl], fun j hj => ?_⟩
  unfold placed
  rw [getD_set0]
  by_cases hij : i = j
  · subst hij
    rw [if_pos ⟨rfl, by rw [hc.1, hl]; exact hi⟩]
    have := hc.2 i (by rw [hl]; exact hi)
    omega
  · rw [if_neg (fun h => hij h.1), ← ho j (Ne.symm hij)]
    exact hc.2 j (by rw [hl]; exact hj)

/-- The blocks of a block. -/
theorem blocks_in {i o : ℕ} {v out : Arr} (hi : i < v.shape.length) (hv : ∀ c, InB v.shape c → out.at (placed i o c) = v.at c) :
    ∀ (kvs : List Arr) (o' : ℕ), (∀ u ∈ kvs, u.shape.length = v.shape.length ∧ ∀ j, j ≠ i → u.shape.getD j 0 = v.shape.getD j 0) →
      o' + dims i kvs ≤ v.shape.getD i 0 → (Blocks i v o' kvs ↔ Blocks i out (o + o') kvs)
  | [], o', _, _ => by simp [Blocks]
  | u :: kvs, o', hk, hd => by
    obtain ⟨h1, h2⟩ := hk u (by simp)
    have hd' : o' + u.shape.getD i 0 + dims i kvs ≤ v.shape.getD i 0 := by
      simp only [dims, List.map_cons, List.sum_cons] at hd ⊢; omega
    have ih := blocks_in hi hv kvs (o' + u.shape.getD i 0) (fun u' hu' => hk u' (by simp [hu'])) hd'
    simp only [Blocks]
    rw [ih, Nat.add_assoc]
    refine and_congr_left fun _ => forall_congr' fun c => imp_congr_right fun hc => ?_
    rw [← hv _ (stacks_inB hi h1 h2 (by omega) hc), placed_placed (by rw [hc.length, h1]; exact hi)]

theorem sum_dims (i : ℕ) (vs : List Arr) : ((vs.map Arr.shape).map fun t => t.getD i 0).sum = dims i vs := by
  rw [List.map_map]; rfl

/-- Placing the parts of a concatenation is placing the concatenation. -/
theorem isConcat_flatten {i : ℕ} {pre kvs post : List Arr} {v out : Arr} (hv : IsConcat i kvs v) :
    IsConcat i (pre ++ v :: post) out ↔ IsConcat i (pre ++ kvs ++ post) out := by
  have hk : ∀ u ∈ kvs, u.shape.length = v.shape.length ∧ ∀ j, j ≠ i → u.shape.getD j 0 = v.shape.getD j 0 :=
    fun u hu => hv.shapes.others u.shape (List.mem_map_of_mem hu)
  have hdim : v.shape.getD i 0 = dims i kvs := by rw [hv.shapes.dim, sum_dims]
  have hne : kvs ≠ [] := fun e => hv.shapes.some (by rw [e]; rfl)
  obtain ⟨u0, hu0⟩ := List.exists_mem_of_ne_nil _ hne
  rw [isConcat_iff, isConcat_iff]
  have hS : Stacks i ((pre ++ v :: post).map Arr.shape) out.shape ↔ Stacks i ((pre ++ kvs ++ post).map Arr.shape) out.shape := by
    constructor
    · intro h
      refine ⟨h.axis, ?_, ?_, ?_⟩
      · intro e; simp at e; exact hne e.2.1
      · rw [h.dim, sum_dims, sum_dims]
        simp only [dims, List.map_append, List.map_cons, List.sum_append, List.sum_cons]
        rw [hdim]; simp only [dims]; omega
      · intro t ht
        simp only [List.map_append, List.mem_append, List.mem_map] at ht
        obtain ⟨h1, h2⟩ := h.others v.shape (by simp)
        rcases ht with (⟨u, hu, rfl⟩ | ⟨u, hu, rfl⟩) | ⟨u, hu, rfl⟩
        · exact h.others _ (List.mem_map_of_mem (by simp [hu]))
        · exact ⟨(hk u hu).1.trans h1, fun j hj => ((hk u hu).2 j hj).trans (h2 j hj)⟩
        · exact h.others _ (List.mem_map_of_mem (by simp [hu]))
    · intro h
      refine ⟨h.axis, by simp, ?_, ?_⟩
      · rw [h.dim, sum_dims, sum_dims]
        simp only [dims, List.map_append, List.map_cons, List.sum_append, List.sum_cons]
        rw [hdim]; simp only [dims]; omega
      · intro t ht
        simp only [List.map_append, List.map_cons, List.mem_append, List.mem_cons, List.mem_map] at ht
        obtain ⟨h1, h2⟩ := h.others u0.shape (List.mem_map_of_mem (by simp [hu0]))
        rcases ht with ⟨u, hu, rfl⟩ | rfl | ⟨u, hu, rfl⟩
        · exact h.others _ (List.mem_map_of_mem (by simp [hu]))
        · exact ⟨(hk u0 hu0).1.symm.trans h1, fun j hj => ((hk u0 hu0).2 j hj).symm.trans (h2 j hj)⟩
        · exact h.others _ (List.mem_map_of_mem (by simp [hu]))
  rw [hS]
  refine and_congr_right fun h => ?_
  rw [List.append_assoc, blocks_append, blocks_append, blocks_append]
  refine and_congr_right fun _ => ?_
  simp only [Blocks]
  rw [hdim]
  refine and_congr_left fun _ => ?_
  have hi : i < v.shape.length := hv.shapes.axis
  constructor
  · intro hc
    have := (blocks_in hi hc kvs 0 hk (by rw [hdim]; omega)).1 (isConcat_iff.1 hv).2
    simpa using this
  · intro hb c hc
    obtain ⟨a, ha, c', hc', e, _⟩ := hv.shapes.locate hc
    have ha' : a < kvs.length := by simpa using ha
    have hc'' : InB kvs[a].shape c' := by simpa using hc'
    have h1 := (blocks_iff i out _ kvs).1 hb a ha' c' hc''
    have h2 := hv.entry a ha' c' hc''
    rw [e, placed_placed (by rw [hc''.length, (hk _ (List.getElem_mem ha')).1]; exact hi), h2, ← h1]

/-- `np.concatenate` of a list with a concatenation in it. -/
theorem concatArr_flatten {ax : ℤ} {pre kvs post : List Arr} {v : Arr} (hv : concatArr ax kvs = some v) :
    concatArr ax (pre ++ v :: post) = concatArr ax (pre ++ kvs ++ post) := by
  obtain ⟨i, hi, hc⟩ := concatArr_spec hv
  have hne : kvs ≠ [] := fun e => hc.shapes.some (by rw [e]; rfl)
  obtain ⟨u0, hu0⟩ := List.exists_mem_of_ne_nil _ hne
  ext out
  constructor
  · intro h
    obtain ⟨i', hi', hc'⟩ := concatArr_spec h
    have e : v.shape.length = out.shape.length := (hc'.shapes.others v.shape (by simp)).1
    rw [← e, hi] at hi'; cases hi'
    exact concatArr_of (by rw [← e]; exact hi) ((isConcat_flatten hc).1 hc')
  · intro h
    obtain ⟨i', hi', hc'⟩ := concatArr_spec h
    have e0 := (hc'.shapes.others u0.shape (List.mem_map_of_mem (by simp [hu0]))).1
    have e1 := (hc.shapes.others u0.shape (List.mem_map_of_mem hu0)).1
    have e : v.shape.length = out.shape.length := e1.symm.trans e0
    rw [← e, hi] at hi'; cases hi'
    exact concatArr_of (by rw [← e]; exact hi) ((isConcat_flatten hc).2 hc')

/-! ## The worklist -/

theorem getKids_ok {g : Graph ClassDef Par} {m : Id} : ∀ {ns : List Name} {l : List Id},
    List.Forall₂ (fun n c => (g m).dterms n = some c) ns l → getKids g m ns = .ok l
  | [], _, h => by cases h; rfl
  | n :: ns, _, h => by
    cases h with
    | cons h1 h2 => simp [getKids, h1, getKids_ok h2]

theorem expand_up {g : Graph ClassDef Par} {ax : ℤ} : ∀ {f f' : ℕ} {ms l : List Id}, f ≤ f' → expandConcats g ax f ms = .ok l →
    expandConcats g ax f' ms = .ok l
  | 0, _, _, _, _, h => by cases h
  | f + 1, 0, _, _, hf, _ => by omega
  | f + 1, f' + 1, [], _, _, h => h
  | f + 1, f' + 1, m :: ms, l, hf, h => by
    have ih := fun {ms l} => expand_up (g := g) (ax := ax) (f := f) (f' := f') (ms := ms) (l := l) (by omega)
    simp only [expandConcats] at h ⊢
    split
    · next hs =>
      rw [if_pos hs] at h
      cases hk : getKids g m (g m).dnames with
      | error e => rw [hk] at h; cases h
      | ok ks => rw [hk] at h; exact ih h
    · next hs =>
      rw [if_neg hs] at h
      cases hk : expandConcats g ax f ms with
      | error e => rw [hk] at h; cases h
      | ok l' => rw [hk] at h; rw [ih hk]; exact h

theorem expand_append {g : Graph ClassDef Par} {ax : ℤ} {f2 : ℕ} {ms l2 : List Id} (h2 : expandConcats g ax f2 ms = .ok l2) :
    ∀ {f1 : ℕ} {ks l1 : List Id}, expandConcats g ax f1 ks = .ok l1 → expandConcats g ax (f1 + f2) (ks ++ ms) = .ok (l1 ++ l2)
  | 0, _, _, h => by cases h
  | f + 1, [], l1, h => by
    simp only [expandConcats] at h; cases h
    exact expand_up (by omega) h2
  | f + 1, k :: ks, l1, h => by
    have ih := fun {ks l1} => expand_append h2 (f1 := f) (ks := ks) (l1 := l1)
    rw [show f + 1 + f2 = f + f2 + 1 by omega]
    simp only [expandConcats, List.cons_append] at h ⊢
    split
    · next hs =>
      rw [if_pos hs] at h
      cases hk : getKids g k (g k).dnames with
      | error e => rw [hk] at h; cases h
      | ok ks' =>
        rw [hk] at h
        have := ih h
        dsimp only
        rw [← List.append_assoc]; exact this
    · next hs =>
      rw [if_neg hs] at h
      cases hk : expandConcats g ax f ks with
      | error e => rw [hk] at h; cases h
      | ok l' =>
        rw [hk] at h
        cases h
        rw [ih hk]; rfl

theorem readAll_inv {α : Type} {g : Graph ClassDef Par} {ev : Req → Except Err Arr} {m : Id} : ∀ {ns : List Name}
    {k : List Arr → Prog Par Arr α} {r : α}, evalProg g ev m (readAll ns k) = .ok r →
      ∃ cs vs, List.Forall₂ (fun n c => (g m).dterms n = some c) ns cs ∧ List.Forall₂ (fun c v => ev (.r c) = .ok v) cs vs ∧
        evalProg g ev m (k vs) = .ok r
  | [], k, r, h => ⟨[], [], .nil, .nil, h⟩
  | n :: ns, k, r, h => by
    simp only [readAll, evalProg] at h
    cases hd : (g m).dterms n with
    | none => rw [hd] at h; cases h
    | some c =>
      rw [hd] at h
      dsimp only at h
      cases hv : ev (.r c) with
      | error e => rw [hv] at h; cases h
      | ok v =>
        rw [hv] at h
        obtain ⟨cs, vs, h1, h2, h3⟩ := readAll_inv (ns := ns) h
        exact ⟨c :: cs, v :: vs, .cons hd h1, .cons hv h2, h3⟩

/-- The value of a concatenation. -/
theorem concat_value_inv {g : Graph ClassDef Par} {ev : Req → Except Err Arr} {m : Id} {ns : List Name} {ax : ℤ} {v : Arr}
    (hp : (g m).terms nmP = some (.int ax)) (h : evalProg g ev m (chConcat ns).r = .ok v) :
    ∃ cs vs, List.Forall₂ (fun n c => (g m).dterms n = some c) ns cs ∧ List.Forall₂ (fun c v => ev (.r c) = .ok v) cs vs ∧
      concatArr ax vs = some v := by
  obtain ⟨cs, vs, h1, h2, h3⟩ := readAll_inv h
  refine ⟨cs, vs, h1, h2, ?_⟩
  simp only [evalProg, hp] at h3
  cases hc : concatArr ax vs with
  | none => rw [hc] at h3; cases h3
  | some o => rw [hc] at h3; simp only [evalProg] at h3; injection h3 with h3; rw [h3]

theorem forall₂_append {α β : Type} {R : α → β → Prop} {a : List α} {b : List β} (h : List.Forall₂ R a b) {c : List α} {d : List β}
    (h' : List.Forall₂ R c d) : List.Forall₂ R (a ++ c) (b ++ d) := by
  induction h with
  | nil => exact h'
  | cons h1 _ ih => exact .cons h1 ih

/-- The expansion ends if the operands have values, and concatenating the values of what it gives is the same as concatenating the
values of the operands. -/
theorem expand_spec {g : Graph ClassDef Par} {ax : ℤ} : ∀ (F : ℕ) {ms : List Id} {vs : List Arr},
    List.Forall₂ (fun m v => evalReq lib g F (.r m) = .ok v) ms vs →
      ∃ f l us, expandConcats g ax f ms = .ok l ∧ List.Forall₂ (fun m v => Means lib g (.r m) (.ok v)) l us ∧
        (∀ m ∈ l, m ∈ ms ∨ ∃ q k, (g q).dterms k = some m) ∧
        ∀ pre post, concatArr ax (pre ++ vs ++ post) = concatArr ax (pre ++ us ++ post)
  | 0, ms, vs, h => by
    cases h with
    | nil => exact ⟨1, [], [], rfl, .nil, by simp, fun _ _ => rfl⟩
    | cons h1 _ => cases h1
  | F + 1, ms, vs, h => by
    induction h with
    | nil => exact ⟨1, [], [], rfl, .nil, by simp, fun _ _ => rfl⟩
    | @cons m v ms vs h1 _ ih =>
      obtain ⟨f, l, us, hl, hu, hin, hc⟩ := ih
      by_cases hs : SameConcat g ax m
      · have h1' : evalProg g (evalReq lib g F) m (chConcat (g m).dnames).r = .ok v := by
          have : evalProg g (evalReq lib g F) m (lib.computeR (g m).cls) = .ok v := h1
          rwa [hs.1] at this
        obtain ⟨cs, kvs, hk, hkv, hv⟩ := concat_value_inv hs.2 h1'
        obtain ⟨f', l', us', hl', hu', hin', hc'⟩ := expand_spec F (ax := ax) hkv
        refine ⟨f' + f + 1, l' ++ l, us' ++ us, ?_, forall₂_append hu' hu, ?_, ?_⟩
        · simp only [expandConcats]
          rw [if_pos hs, getKids_ok hk]
          exact expand_append hl hl'
        · intro x hx
          rcases List.mem_append.1 hx with hx | hx
          · rcases hin' x hx with hx | hx
            · right
              obtain ⟨j, hj, rfl⟩ := List.getElem_of_mem hx
              have hlen := hk.length_eq
              exact ⟨m, _, (List.forall₂_iff_get.1 hk).2 j (by omega) hj⟩
            · exact Or.inr hx
          · rcases hin x hx with hx | hx
            · exact Or.inl (by simp [hx])
            · exact Or.inr hx
        · intro pre post
          have e1 : pre ++ v :: vs ++ post = pre ++ v :: (vs ++ post) := by simp
          rw [e1, concatArr_flatten hv, hc' pre (vs ++ post)]
          have := hc (pre ++ us') post
          simp only [List.append_assoc] at this ⊢
          exact this
      · refine ⟨f + 1, m :: l, v :: us, ?_, .cons ⟨by simp, F + 1, h1⟩ hu, ?_, ?_⟩
        · simp only [expandConcats]; rw [if_neg hs, hl]
        · intro x hx
          rcases List.mem_cons.1 hx with rfl | hx
          · exact Or.inl (by simp)
          · rcases hin x hx with hx | hx
            · exact Or.inl (by simp [hx])
            · exact Or.inr hx
        · intro pre post
          have := hc (pre ++ [v]) post
          simpa using this

/-! ## The new object -/

theorem concatNames_nodup (n : ℕ) : (concatNames n).Nodup :=
  List.Nodup.map (fun a b h => by have : 100 + a = 100 + b := h; omega) List.nodup_range

theorem foldl_links : ∀ (l : List Id) (o : ℕ) (n : GNode ClassDef Par),
    let n' := (l.zipIdx o).foldl (fun n (p : Id × ℕ) => n.assign (KW.link (nmM p.2) p.1)) n
    n'.cls = n.cls ∧ n'.dnames = n.dnames ∧ n'.terms = n.terms ∧ n'.makeDense = n.makeDense ∧ n'.makeSparse = n.makeSparse ∧
      (∀ j, j < o → n'.dterms (nmM j) = n.dterms (nmM j)) ∧ ∀ j (hj : j < l.length), n'.dterms (nmM (o + j)) = some l[j]
  | [], o, n => by simp
  | m :: l, o, n => by
    obtain ⟨h1, h2, h3, h4, h5, h6, h7⟩ := foldl_links l (o + 1) (n.assign (KW.link (nmM o) m))
    simp only [List.zipIdx_cons, List.foldl_cons]
    refine ⟨h1, h2, h3, h4, h5, fun j hj => ?_, fun j hj => ?_⟩
    · rw [h6 j (by omega)]
      show (if nmM j = nmM o then _ else _) = _
      rw [if_neg (fun e => by have : 100 + j = 100 + o := e; omega)]
    · cases j with
      | zero =>
        refine (h6 o (by omega)).trans ?_
        show (if nmM o = nmM o then _ else _) = _
        rw [if_pos rfl]; rfl
      | succ j =>
        have := h7 j (by simpa using hj)
        rw [show o + (j + 1) = o + 1 + j by omega, this]; rfl

theorem concatO_node (ax : ℤ) (l : List Id) : (concatO ax l).node.cls = chConcat (concatNames l.length) ∧
    (concatO ax l).node.dnames = concatNames l.length ∧ (concatO ax l).node.terms nmP = some (.int ax) ∧
    ∀ j (hj : j < l.length), (concatO ax l).node.dterms (nmM j) = some l[j] := by
  obtain ⟨h1, h2, h3, _, _, _, h7⟩ := foldl_links l 0 ⟨(concatO ax l).cls, fun _ => none, (concatO ax l).dnames, fun _ => none, false, false⟩
  unfold ObjSpec.node
  rw [show (concatO ax l).kws = (l.zipIdx.map fun p => KW.link (nmM p.2) p.1) ++ [.term nmP (.int ax)] from rfl, List.foldl_append,
    List.foldl_map]
  refine ⟨h1, h2, ?_, fun j hj => ?_⟩
  · simp only [List.foldl_cons, List.foldl_nil, GNode.assign]
    exact if_pos trivial
  · have := h7 j hj
    rw [Nat.zero_add] at this
    exact this

theorem isA_concatO {g : Graph ClassDef Par} {y : Id} {ax : ℤ} {l : List Id} (h : g y = (concatO ax l).node) :
    IsA g y (chConcat (concatNames l.length)) (concatNames l.length) fun a => l.get (a.cast (by simp [concatNames])) := by
  obtain ⟨h1, h2, _, h4⟩ := concatO_node ax l
  refine ⟨by rw [h, h1], by rw [h, h2], concatNames_nodup _, fun a => ?_⟩
  have ha : (a : ℕ) < l.length := by have := a.2; simpa [concatNames] using this
  have e : (concatNames l.length).get a = nmM a := by
    have h0 : (concatNames l.length)[(a : ℕ)] = nmM a := by simp [concatNames]
    exact h0
  rw [e, h, h4 a ha]
  rfl

theorem not_anc_next {h : Heap ClassDef Par Arr Jac} (hs : Str h) {j : Id} (ha : (h.node j).alive = true) : ¬ Anc h.graph h.next j := by
  intro hc
  induction hc with
  | refl => exact absurd (hs.alive_lt ha) (Nat.lt_irrefl _)
  | step k hk _ ih => exact ih (hs.child_alive hk)

/-- Making an object changes nothing else. -/
theorem newObj_state {h : Heap ClassDef Par Arr Jac} {m : Mode} (hr : Reach lib m h) (o : ObjSpec ClassDef Par)
    (hperm : o.cls.permute = false) (hk : ∀ kw ∈ o.kws, kw.Plain h o.dnames) :
    ∃ h', newObj lib o.cls o.dnames false false o.kws h = (h', .ok h.next) ∧ Reach lib m h' ∧ (∀ j, h'.graph j = if j = h.next then o.node else h.graph j) ∧
      h'.next = h.next + 1 ∧ (∀ j, (h'.node j).alive = if j = h.next then true else (h.node j).alive) ∧
      ∀ j v, (h.node j).alive = true → Means lib h.graph (.r j) (.ok v) → Means lib h'.graph (.r j) (.ok v) := by
  have hs := reach_str hr
  obtain ⟨e, _⟩ := newObj_eq (s := lib) hs o hk
  obtain ⟨h1, h2, h3, h4⟩ := newObj_built (s := lib) hs o hk
  have hr' : Reach lib m (step lib (.new o.cls o.dnames false false o.kws) h).1 :=
    Reach.step _ hr ⟨fun _ (hp : o.cls.permute = true) => (by rw [hperm] at hp; cases hp), fun _ => ⟨rfl, rfl⟩⟩
  have es : (step lib (.new o.cls o.dnames false false o.kws) h).1 = (newObj lib o.cls o.dnames false false o.kws h).1 := by
    dsimp only [step, M.map']
  refine ⟨(step lib (.new o.cls o.dnames false false o.kws) h).1, ?_, hr', h4, h2, h3, ?_⟩
  · rw [es, e]
  · intro j v ha ⟨_, f, hf⟩
    refine ⟨by simp, f, ?_⟩
    have hoff : SameOff h.graph (step lib (.new o.cls o.dnames false false o.kws) h).1.graph h.next := fun j hj => by rw [h4, if_neg hj]
    have hanc := not_anc_next hs ha
    rw [(evalReq_off lib hoff f j hanc).1]; exact hf
end Chumpy
