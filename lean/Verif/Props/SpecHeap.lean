import Verif.Lemmas.SpecHeap
/-!
# C162, C163: descriptions and specifications in memory
-/
namespace Verif.SpecHeap
open Spec (SVal Struct Value)

/-! ## C162 -/

/-- `m["self"] = [2]interface{}{"A", m}` -/
def selfMap : Maps := fun _ => [(b "self", .pair ⟨some (b "A"), .hash 0⟩)]

/-- **C162 does not hold**: with a map that contains itself `NewStruct` calls itself until the stack overflows, however large it is. -/
theorem C162_violated : ∃ maps a, ∀ n h, NewStruct maps n (b "A") a h = .overflow := by
  refine ⟨selfMap, 0, fun n => ?_⟩
  have hu : utf8Valid (b "self") = true := by decide
  induction n with
  | zero => intro h; simp [NewStruct, newStruct, selfMap, loop, field, andThen, newValue, hu]
  | succ n ih =>
    intro h
    have := ih h
    simp only [NewStruct] at this
    simp only [NewStruct, newStruct, selfMap, loop, field, hu, if_true, andThen, newValue, step, newSingle] at this ⊢
    rw [this]

/-- **C162**: with a description whose maps do not contain themselves (they may be shared) the call ends on a stack that is large enough, and does what the call with
the written out description does (`Model/Spec`, C01 and the following). -/
theorem C162_partial (maps : Maps) (name : Bytes) (a : Nat) (hv : ∀ e ∈ maps a, NoCycle maps e.2) : ∃ n0, ∀ n, n0 ≤ n → ∀ h : Heap, Closed h →
    (∀ e ∈ maps a, ∀ v, Reach maps e.2 v → ∀ p ∈ v.pointers, Valid h.length p) →
      match NewStruct maps n name a h with
      | .ok p h' => Spec.NewStruct name (some ((maps a).map fun e => (e.1, tree maps h n e.2))) = .ok (readS h' (n + 1) p)
      | .err e => Spec.NewStruct name (some ((maps a).map fun e => (e.1, tree maps h n e.2))) = .error e
      | .overflow => False := by
  obtain ⟨n0, h0⟩ := bound_all (P := fun m (e : Bytes × MVal) => NoOverflow (newValue maps m e.2)) (maps a) fun e he => newValue_ends (hv e he)
  refine ⟨n0, fun n hn h hc hp => ?_⟩
  have hno : NoOverflow (NewStruct maps n name a) := NoOverflow.single (p := ⟨some name, .hash a⟩) fun a' ha => by
    rw [Pair.maps, List.mem_singleton] at ha
    subst ha
    exact h0 n hn
  have hs := sim_single (A := Valid h.length) (p := ⟨some name, .hash a⟩) (maps := maps) (nv := newValue maps n) (nt := Spec.newValue) (tr := tree maps h n)
    (n := n) hc (fun p hp => hp) (Fresh.refl _ h) fun a' ha e he h1 hf => by
      rw [Pair.maps, List.mem_singleton] at ha
      subst ha
      exact sim_newValue hc (fun p hp => hp) n n e.2 h1 (Nat.le_refl _) hf (hp e he)
  simp only [Sim] at hs
  have e : newSingle maps (newValue maps n) ⟨some name, .hash a⟩ h = NewStruct maps n name a h := rfl
  rw [e] at hs
  have := hno h
  split
  · rename_i p h' he
    rw [he] at hs
    obtain ⟨_, _, t, h1, _, h2⟩ := hs
    rw [h2]; exact h1
  · rename_i er he
    rw [he] at hs
    exact hs
  · rename_i he; exact this he

/-- Whatever the stack: when the call returns, it has done what the call with the written out description does. -/
theorem C162_tree (maps : Maps) (name : Bytes) (a n k : Nat) (hk : n ≤ k) (h : Heap) (hc : Closed h)
    (hp : ∀ e ∈ maps a, ∀ v, Reach maps e.2 v → ∀ p ∈ v.pointers, Valid h.length p) :
      (∀ p h', NewStruct maps n name a h = .ok p h' →
        Spec.NewStruct name (some ((maps a).map fun e => (e.1, tree maps h k e.2))) = .ok (readS h' (k + 1) p)) ∧
      (∀ e, NewStruct maps n name a h = .err e → Spec.NewStruct name (some ((maps a).map fun e => (e.1, tree maps h k e.2))) = .error e) := by
  have hs := sim_single (A := Valid h.length) (p := ⟨some name, .hash a⟩) (maps := maps) (nv := newValue maps n) (nt := Spec.newValue) (tr := tree maps h k)
    (n := k) hc (fun p hp => hp) (Fresh.refl _ h) fun a' ha e he h1 hf => by
      rw [Pair.maps, List.mem_singleton] at ha
      subst ha
      exact sim_newValue hc (fun p hp => hp) n k e.2 h1 hk hf (hp e he)
  simp only [Sim] at hs
  have e : newSingle maps (newValue maps n) ⟨some name, .hash a⟩ h = NewStruct maps n name a h := rfl
  rw [e] at hs
  constructor
  · intro p h' he
    rw [he] at hs
    obtain ⟨_, _, t, h1, _, h2⟩ := hs
    rw [h2]; exact h1
  · intro er he
    rw [he] at hs
    exact hs

/-- A description that contains itself has no specification: if the call returns one, nothing in it does. -/
theorem C162_cycle (maps : Maps) (n : Nat) (name : Bytes) (a : Nat) (h : Heap) (p : Ptr) (h' : Heap) (hr : NewStruct maps n name a h = .ok p h') :
    ∀ e ∈ maps a, NoCycle maps e.2 := fun e he =>
  newValue_noCycle n e.2 (single_ok (p := ⟨some name, .hash a⟩) ⟨h, p, h', hr⟩ a (by simp [Pair.maps]) e he)

namespace Demo

/-- `c = {"z": "C"}; {"x": [2]{"A", c}, "y": [][2]{{"A", c}, {"B", nil}}}` -/
def maps : Maps
  | 0 => [(b "x", .pair ⟨some (b "A"), .hash 1⟩), (b "y", .pairs [⟨some (b "A"), .hash 1⟩, ⟨some (b "B"), .nil⟩])]
  | 1 => [(b "z", .str (b "C"))]
  | _ => []

theorem leaf {a : Nat} {v v' : MVal} (hm : v.maps = [a]) (ha : a = 1) (h : Inside maps v' v) : v' = .str (b "C") := by
  obtain ⟨a', h1, e, he, rfl⟩ := h
  subst ha
  rw [hm, List.mem_singleton] at h1
  subst h1
  rw [List.mem_singleton.1 he]

theorem str_inside {s : Bytes} {v' : MVal} (h : Inside maps v' (.str s)) : False := by
  obtain ⟨_, h1, _⟩ := h; cases h1

theorem noCycle : ∀ e ∈ maps 0, NoCycle maps e.2 := by
  intro e he
  have hm : e.2.maps = [1] := by
    simp only [maps, List.mem_cons, List.not_mem_nil, or_false] at he
    rcases he with rfl | rfl <;> rfl
  refine .intro _ fun v' hv' => ?_
  rw [leaf hm rfl hv']
  exact .intro _ fun _ h => (str_inside h).elim

theorem noPointers : ∀ e ∈ maps 0, ∀ v, Reach maps e.2 v → ∀ q ∈ v.pointers, q = none := by
  intro e he v hr
  have hm : e.2.maps = [1] := by
    simp only [maps, List.mem_cons, List.not_mem_nil, or_false] at he
    rcases he with rfl | rfl <;> rfl
  have : v = e.2 ∨ v = .str (b "C") := by
    induction hr with
    | refl => exact Or.inl rfl
    | step _ h2 ih =>
      rcases ih with rfl | rfl
      · exact Or.inr (leaf hm rfl h2)
      · exact (str_inside h2).elim
  simp only [maps, List.mem_cons, List.not_mem_nil, or_false] at he
  rcases this with rfl | rfl
  · rcases he with rfl | rfl <;> simp [MVal.pointers]
  · simp [MVal.pointers]

end Demo

/-- A shared map: two structs of class A with the same fields. -/
example : ∃ p h', NewStruct Demo.maps 2 (b "T") 0 [] = .ok p h' ∧ readS h' 3 p = .mk (b "T") (some
    [(b "x", .single (.mk (b "A") (some [(b "z", .single (.mk (b "C") none))]))),
     (b "y", .list [.mk (b "A") (some [(b "z", .single (.mk (b "C") none))]), .mk (b "B") none])]) := by
  have hx : utf8Valid (b "x") = true := by decide
  have hy : utf8Valid (b "y") = true := by decide
  have hz : utf8Valid (b "z") = true := by decide
  refine ⟨_, _, by simp [NewStruct, newStruct, Demo.maps, loop, field, hx, hy, hz, andThen, newValue, step, newSingle, ret, alloc, plain]; exact ⟨rfl, rfl⟩, ?_⟩
  simp [readS, RVal.view]

example := C162_partial Demo.maps (b "T") 0 Demo.noCycle

/-! ## C163 -/

/-- The description `{"B": s}` with a `*Struct` for `s`. -/
def ptrMap : Maps := fun _ => [(b "B", .ptr (some 0))]

/-- **C163 does not hold**: a `*Struct` in the description becomes part of the specification; a change of it later changes the specification. -/
theorem C163_violated : ∃ (maps : Maps) (h h' : Heap) (p : Ptr) (c : Cell), NewStruct maps 1 (b "A") 0 h = .ok p h' ∧ readS (h'.set 0 c) 2 p ≠ readS h' 2 p := by
  have hu : utf8Valid (b "B") = true := by decide
  refine ⟨ptrMap, [⟨b "X", none⟩], [⟨b "X", none⟩, ⟨b "A", some [(b "B", .single (some 0))]⟩], some 1, ⟨b "Y", none⟩, ?_, ?_⟩
  · simp [NewStruct, newStruct, ptrMap, loop, field, hu, andThen, newValue, step, ret, alloc]
  · have hne : b "Y" ≠ b "X" := by decide
    simpa [readS, RVal.view] using hne

/-- **C163**, for every description: the structs that were there before are unchanged, and the specification depends only on new structs and on those in the
description (`S`: addresses that include these, and with each the ones that it points to). -/
theorem C163_shared (maps : Maps) (n : Nat) (name : Bytes) (a : Nat) (h h' : Heap) (p : Ptr) (hr : NewStruct maps n name a h = .ok p h') (hc : Closed h)
    (S : Nat → Prop) (hS : ∀ i, S i → i < h.length ∧ ∀ c, h[i]? = some c → ∀ q ∈ c.pointers, ∀ j, q = some j → S j)
    (hv : ∀ e ∈ maps a, ∀ v, Reach maps e.2 v → ∀ q ∈ v.pointers, ∀ j, q = some j → S j) :
    (∀ i, i < h.length → h'[i]? = h[i]?) ∧
      ∀ h2 : Heap, (∀ i, h.length ≤ i ∨ S i → h2[i]? = h'[i]?) → ∀ k, readS h2 k p = readS h' k p := by
  let A : Ptr → Prop := fun q => ∀ j, q = some j → S j
  have hA : ∀ q, A q → Valid h.length q := fun q hq j hj => (hS j (hq j hj)).1
  have hs := sim_single (A := A) (p := ⟨some name, .hash a⟩) (maps := maps) (nv := newValue maps n) (nt := Spec.newValue) (tr := tree maps h n)
    (n := n) hc hA (Fresh.refl _ h) fun a' ha e he h1 hf => by
      rw [Pair.maps, List.mem_singleton] at ha
      subst ha
      exact sim_newValue hc hA n n e.2 h1 (Nat.le_refl _) hf (hv e he)
  simp only [Sim] at hs
  have e : newSingle maps (newValue maps n) ⟨some name, .hash a⟩ h = NewStruct maps n name a h := rfl
  rw [e, hr] at hs
  obtain ⟨hf, ⟨new, rfl⟩, _, _, hq, _⟩ := hs
  refine ⟨fun i hi => List.getElem?_append_left hi, fun h2 h2e k => ?_⟩
  have hQ : ∀ q, Q A h.length (h ++ new).length q → ∀ j, q = some j → h.length ≤ j ∨ S j := by
    rintro q (⟨j', h1, h2, _⟩ | h1) j hj
    · rw [hj] at h1; cases h1; exact Or.inl h2
    · exact Or.inr (h1 j hj)
  refine (readS_agree (h := h ++ new) (h' := h2) (S := fun q => ∀ j, q = some j → h.length ≤ j ∨ S j) ?_ ?_ k p (hQ p hq)).symm
  · intro q hq
    cases q with
    | none => rfl
    | some j => simp only [Option.bind_some]; exact (h2e j (hq j rfl)).symm
  · intro q c hq hb r hr j hj
    cases q with
    | none => cases hb
    | some i =>
      simp only [Option.bind_some] at hb
      rcases hq i rfl with hi | hi
      · exact hQ r (hf.cells i c hi hb r hr) j hj
      · rw [List.getElem?_append_left (hS i hi).1] at hb
        exact Or.inr ((hS i hi).2 c hb r hr j hj)

/-- **C163**: without a `*Struct` in the description nothing that was there before is part of the specification: whatever becomes of it, the specification stays as it is. -/
theorem C163_partial (maps : Maps) (n : Nat) (name : Bytes) (a : Nat) (h h' : Heap) (p : Ptr) (hr : NewStruct maps n name a h = .ok p h') (hc : Closed h)
    (hv : ∀ e ∈ maps a, ∀ v, Reach maps e.2 v → ∀ q ∈ v.pointers, q = none) :
    (∀ i, i < h.length → h'[i]? = h[i]?) ∧ ∀ h2 : Heap, (∀ i, h.length ≤ i → h2[i]? = h'[i]?) → ∀ k, readS h2 k p = readS h' k p := by
  obtain ⟨h1, h3⟩ := C163_shared maps n name a h h' p hr hc (fun _ => False) (fun _ h => h.elim)
    fun e he v hrv q hq j hj => by rw [hv e he v hrv q hq] at hj; cases hj
  exact ⟨h1, fun h2 he => h3 h2 fun i hi => he i (hi.resolve_right id)⟩

example (p : Ptr) (h' : Heap) (hr : NewStruct Demo.maps 2 (b "T") 0 [⟨b "X", none⟩] = .ok p h') (c : Cell) (k : Nat) : readS (h'.set 0 c) k p = readS h' k p :=
  (C163_partial Demo.maps 2 (b "T") 0 _ h' p hr (by intro c hc p hp; rw [List.mem_singleton.1 hc] at hp; cases hp) Demo.noPointers).2 _
    (fun i hi => by simp only [List.length_singleton] at hi; rw [List.getElem?_set_ne (by omega)]) k

end Verif.SpecHeap
