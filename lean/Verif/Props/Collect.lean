import Verif.Lemmas.Collect
set_option linter.unusedSimpArgs false
/-!
# C44, C45: type discovery

`collectN` is `collectStructTypes` cut off after a number of nested calls; the code terminates
iff there is a number of calls for which it is not `none`.
-/
namespace Verif.Det

/-! ## An example: a recursive type graph -/

/-- `Node` (0): `Next *Node`, `Kids []*Leaf`, `Shape Shape`, `Index map[string]*Node`;
`Leaf` (1) and `Circle` (2), which implements `Shape` (interface 0). -/
def listEnv : Env where
  struct
    | 0 => ⟨b "Node", b "list", [.mk (b "Next") true [] (.ptr (.struct 0)) none,
        .mk (b "Kids") true [] (.slice (.ptr (.struct 1))) none,
        .mk (b "Shape") true [] (.iface 0) none,
        .mk (b "Index") true [] (.map .str (.ptr (.struct 0))) none]⟩
    | 1 => ⟨b "Leaf", b "list", [.mk (b "Up") true [] (.ptr (.struct 0)) none]⟩
    | 2 => ⟨b "Circle", b "geo", []⟩
    | _ => ⟨[], [], []⟩
  iface _ := ⟨b "Shape", fun c => c == 2⟩
  under _ := .leaf 0

def listImpls : GoMap Bytes (List (Option Ty)) := [(b "Shape", [none, some (.ptr (.struct 2))])]

/-- All types reachable from `*Node`. -/
def listTypes : List Ty := [.ptr (.struct 0), .struct 0, .slice (.ptr (.struct 1)), .ptr (.struct 1),
  .struct 1, .iface 0, .ptr (.struct 2), .struct 2, .map .str (.ptr (.struct 0))]

def tyRank : Ty → Nat | .struct _ => 0 | .ptr _ => 1 | _ => 2

theorem listStep {t u : Ty} (ht : t ∈ listTypes) (hs : Step listEnv listImpls t u) : u ∈ listTypes ∧
    ((∀ c, listEnv.resolve t ≠ .struct c) →
      tyRank u < tyRank t) := by
  have hl : GoMap.get? listImpls (listEnv.iface 0).name = some [none, some (.ptr (.struct 2))] := by decide
  simp only [listTypes, List.mem_cons, List.not_mem_nil, or_false] at ht
  rcases ht with rfl | rfl | rfl | rfl | rfl | rfl | rfl | rfl | rfl <;>
    cases hs with
    | ptr h => simp [Env.resolve] at h <;> (subst h; simp [listTypes, tyRank])
    | slice h => simp [Env.resolve] at h <;> (subst h; simp [listTypes, tyRank])
    | map h => simp [Env.resolve] at h <;> (obtain ⟨rfl, rfl⟩ := h; simp [listTypes, tyRank])
    | field h hf =>
      simp [Env.resolve] at h <;>
      (subst h; simp [listEnv] at hf <;>
        first
        | (rcases hf with rfl | rfl | rfl | rfl <;> simp [listTypes, tyRank, Fld.ty, Env.resolve])
        | (subst hf; simp [listTypes, tyRank, Fld.ty, Env.resolve]))
    | impl h h2 h3 =>
      simp [Env.resolve] at h <;>
      (subst h; rw [hl] at h2; cases h2; simp at h3; subst h3; simp [listTypes, tyRank])

theorem listReach {u : Ty} (h : Reach listEnv listImpls (.ptr (.struct 0)) u) : u ∈ listTypes := by
  induction h with
  | refl => simp [listTypes]
  | step _ hs ih => exact (listStep ih hs).1

theorem listNames : ∀ c c' n, c < 3 → c' < 3 → IsNameOf listEnv n c → IsNameOf listEnv n c' → c = c' := by
  intro c c' n hc hc' h h'
  obtain ⟨_, h⟩ := h
  obtain ⟨_, h'⟩ := h'
  have : c = 0 ∨ c = 1 ∨ c = 2 := by omega
  have : c' = 0 ∨ c' = 1 ∨ c' = 2 := by omega
  rcases ‹c = 0 ∨ _› with rfl | rfl | rfl <;> rcases ‹c' = 0 ∨ _› with rfl | rfl | rfl <;>
    first
    | rfl
    | (exfalso; rcases h with rfl | ⟨_, rfl⟩ <;> rcases h' with h' | ⟨_, h'⟩ <;> revert h' <;> decide)

theorem listStruct {u c} (h : Reach listEnv listImpls (.ptr (.struct 0)) u)
    (hc : listEnv.resolve u = .struct c) : c < 3 := by
  have := listReach h
  simp only [listTypes, List.mem_cons, List.not_mem_nil, or_false] at this
  rcases this with rfl | rfl | rfl | rfl | rfl | rfl | rfl | rfl | rfl <;>
    simp [Env.resolve] at hc <;> omega

theorem listPlain : Plain listEnv listImpls (.ptr (.struct 0)) where
  named u c hu hc := by
    have := listStruct hu hc
    have : c = 0 ∨ c = 1 ∨ c = 2 := by omega
    rcases this with rfl | rfl | rfl <;> decide
  unique u c u' c' n hu hc hu' hc' := listNames c c' n (listStruct hu hc) (listStruct hu' hc')
  ptr u e e' hu he := by
    have := listReach hu
    simp only [listTypes, List.mem_cons, List.not_mem_nil, or_false] at this
    rcases this with rfl | rfl | rfl | rfl | rfl | rfl | rfl | rfl | rfl <;>
      simp [Env.resolve] at he <;> (subst he; simp [Env.resolve])

/-! ## C44 -/

/-- Nothing is invented: every discovered entry is a fresh template of a struct type that is
reachable from the target type, under its short or its package-qualified name. -/
theorem C44_sound {env : Env} {zero : Nat → List (Bytes × Val)} {impls : GoMap Bytes (List (Option Ty))}
    {fuel : Nat} {root : Ty} {reg : Reg} (h : collectN env zero impls fuel root [] = some reg)
    {n : Bytes} {tm : Tmpl} (hg : GoMap.get? reg n = some tm) :
    ∃ c u, Reach env impls root u ∧ env.resolve u = .struct c ∧ IsNameOf env n c ∧ tm = .ptr c (zero c) := by
  rcases collectN_sound h n tm hg with h1 | h1
  · simp [GoMap.get?] at h1
  · exact h1

/-- Discovery is exact when every reachable struct has a name, no two share one, and there is no
pointer to a pointer: a name is registered with the type `c` iff `c` is reachable and the name
is its short or its package-qualified name. -/
theorem C44_exact_partial {env : Env} {zero : Nat → List (Bytes × Val)}
    {impls : GoMap Bytes (List (Option Ty))} {fuel : Nat} {root : Ty} {reg : Reg}
    (hp : Plain env impls root) (h : collectN env zero impls fuel root [] = some reg) (n : Bytes) (c : Nat) :
    (∃ content, GoMap.get? reg n = some (.ptr c content)) ↔
      IsNameOf env n c ∧ ∃ u, Reach env impls root u ∧ env.resolve u = .struct c := by
  constructor
  · rintro ⟨content, hg⟩
    obtain ⟨c', u, h1, h2, h3, h4⟩ := C44_sound h hg
    cases h4
    exact ⟨h3, u, h1, h2⟩
  · rintro ⟨h1, u, h2, h3⟩
    exact ⟨_, collect_complete hp h h2 h3 h1⟩

example : Plain listEnv listImpls (.ptr (.struct 0)) ∧
    (collectN listEnv (fun _ => []) listImpls 5 (.ptr (.struct 0)) []).map GoMap.keys
      = some [b "Node", b "list.Node", b "Leaf", b "list.Leaf", b "Circle", b "geo.Circle"] :=
  ⟨listPlain, by decide⟩

/-- A struct with the short name of one already found is lost, with everything below it, even
under its qualified name: `a.Item` and `b.Item`. -/
def clashEnv : Env where
  struct
    | 0 => ⟨b "Root", b "r", [.mk (b "X") true [] (.struct 1) none, .mk (b "Y") true [] (.struct 2) none]⟩
    | 1 => ⟨b "Item", b "a", []⟩
    | 2 => ⟨b "Item", b "b", [.mk (b "Z") true [] (.struct 3) none]⟩
    | 3 => ⟨b "Deep", b "b", []⟩
    | _ => ⟨[], [], []⟩
  iface _ := ⟨[], fun _ => false⟩
  under _ := .leaf 0

/-- C44 does not hold in general (1): two packages with a struct of the same name. -/
theorem C44_clash_violated : ∃ reg, collectN clashEnv (fun _ => []) [] 9 (.ptr (.struct 0)) [] = some reg ∧
    Reach clashEnv [] (.ptr (.struct 0)) (.struct 2) ∧ IsNameOf clashEnv (b "b.Item") 2 ∧
    GoMap.get? reg (b "b.Item") = none ∧
    Reach clashEnv [] (.ptr (.struct 0)) (.struct 3) ∧ IsNameOf clashEnv (b "Deep") 3 ∧
    GoMap.get? reg (b "Deep") = none := by
  have h2 : Reach clashEnv [] (.ptr (.struct 0)) (.struct 2) :=
    (Reach.refl.step (.ptr rfl)).step
      (.field (c := 0) (f := .mk (b "Y") true [] (.struct 2) none) rfl (by simp [clashEnv]))
  exact ⟨_, rfl, h2, ⟨by decide, Or.inr (by decide)⟩, rfl,
    h2.step (.field (c := 2) (f := .mk (b "Z") true [] (.struct 3) none) rfl (by simp [clashEnv])),
    ⟨by decide, Or.inl rfl⟩, rfl⟩

/-- `Root` has a field of a struct type without a name (1), which holds `Inner` (2), and a
pointer to a pointer to `Far` (3). -/
def hiddenEnv : Env where
  struct
    | 0 => ⟨b "Root", b "r", [.mk (b "X") true [] (.struct 1) none, .mk (b "Y") true [] (.ptr (.ptr (.struct 3))) none]⟩
    | 1 => ⟨[], [], [.mk (b "I") true [] (.struct 2) none]⟩
    | 2 => ⟨b "Inner", b "r", []⟩
    | 3 => ⟨b "Far", b "r", []⟩
    | _ => ⟨[], [], []⟩
  iface _ := ⟨[], fun _ => false⟩
  under _ := .leaf 0

/-- C44 does not hold in general (2): structs behind an unnamed struct type, and behind two
pointers, are not found. -/
theorem C44_hidden_violated : ∃ reg, collectN hiddenEnv (fun _ => []) [] 9 (.ptr (.struct 0)) [] = some reg ∧
    Reach hiddenEnv [] (.ptr (.struct 0)) (.struct 2) ∧ IsNameOf hiddenEnv (b "Inner") 2 ∧
    GoMap.get? reg (b "Inner") = none ∧
    Reach hiddenEnv [] (.ptr (.struct 0)) (.struct 3) ∧ IsNameOf hiddenEnv (b "Far") 3 ∧
    GoMap.get? reg (b "Far") = none := by
  refine ⟨_, rfl, ?_, ⟨by decide, Or.inl rfl⟩, rfl, ?_, ⟨by decide, Or.inl rfl⟩, rfl⟩
  · exact ((Reach.refl.step (.ptr rfl)).step
      (.field (c := 0) (f := .mk (b "X") true [] (.struct 1) none) rfl (by simp [hiddenEnv]))).step
      (.field (c := 1) (f := .mk (b "I") true [] (.struct 2) none) rfl (by simp [hiddenEnv]))
  · exact (((Reach.refl.step (.ptr rfl)).step
      (.field (c := 0) (f := .mk (b "Y") true [] (.ptr (.ptr (.struct 3))) none) rfl (by simp [hiddenEnv]))).step
      (.ptr rfl)).step (.ptr rfl)

/-! ## C45 -/

/-- Discovery terminates on every finite type graph, recursive structs included, in which no type
contains itself without a struct in between. -/
theorem C45_terminates_partial {env : Env} (zero : Nat → List (Bytes × Val))
    {impls : GoMap Bytes (List (Option Ty))} {root : Ty} (tys : List Ty)
    (hfin : ∀ u, Reach env impls root u → u ∈ tys)
    (hl : ∀ u, Reach env impls root u → ¬ Loop env impls u) :
    ∃ fuel reg, ∀ fuel' ≥ fuel, collectN env zero impls fuel' root [] = some reg := by
  obtain ⟨fuel, reg, h⟩ := collectN_terminates (zero := zero)
    (tys.filterMap fun u => match env.resolve u with | .struct c => some (env.struct c).name | _ => none)
    (by
      intro u c hu hc
      exact List.mem_filterMap.2 ⟨u, hfin u hu, by simp [hc]⟩)
    (acc_of_finite tys hfin hl) _ root .refl [] (Nat.le_refl _)
  exact ⟨fuel, reg, fun _ hle => collectN_fuel_le hle h⟩

example : (∀ u, Reach listEnv listImpls (.ptr (.struct 0)) u → u ∈ listTypes) ∧
    (∀ u, Reach listEnv listImpls (.ptr (.struct 0)) u → ¬ Loop listEnv listImpls u) ∧
    Relation.TransGen (Step listEnv listImpls) (.struct 0) (.struct 0) := by
  refine ⟨fun u => listReach, fun u hu hl => ?_, ?_⟩
  · have key : ∀ x, Relation.TransGen (StepNS listEnv listImpls) u x → x ∈ listTypes ∧
        tyRank x < tyRank u := by
      intro x hx
      induction hx with
      | single h => have := listStep (listReach hu) h.1; exact ⟨this.1, this.2 h.2⟩
      | tail _ h ih => have := listStep ih.1 h.1; exact ⟨this.1, Nat.lt_trans (this.2 h.2) ih.2⟩
    exact Nat.lt_irrefl _ (key u hl).2
  · exact .tail (.single (.field (c := 0) (f := .mk (b "Next") true [] (.ptr (.struct 0)) none) rfl
      (by simp [listEnv]))) (.ptr rfl)

/-- `type T []T` (0) and `type L []Shape` (1), where `L` implements `Shape`. -/
def loopEnv : Env where
  struct
    | 0 => ⟨b "Root", b "r", [.mk (b "X") true [] (.named 0) none]⟩
    | _ => ⟨b "Other", b "r", [.mk (b "Y") true [] (.iface 0) none]⟩
  iface _ := ⟨b "Shape", fun _ => false⟩
  under | 0 => .slice (.named 0) | _ => .slice (.iface 0)

/-- C45 does not hold in general (1): discovery never ends on a struct with a field of the legal
Go type `type T []T`. -/
theorem C45_slice_violated (zero : Nat → List (Bytes × Val)) (fuel : Nat) :
    collectN loopEnv zero [] fuel (.ptr (.struct 0)) [] = none := by
  have key : ∀ fuel ref, collectN loopEnv zero [] fuel (.named 0) ref = none := by
    intro fuel
    induction fuel with
    | zero => intro ref; rfl
    | succ n ih =>
      intro ref
      have : loopEnv.resolve (loopEnv.deref (.named 0)) = .slice (.named 0) := rfl
      simp only [collectN, this]
      exact ih ref
  cases fuel with
  | zero => rfl
  | succ n =>
    have : loopEnv.resolve (loopEnv.deref (.ptr (.struct 0))) = .struct 0 := rfl
    simp only [collectN, this]
    rw [if_neg (by decide)]
    simp [loopEnv, Fld.ty]
    exact key n _

/-- C45 does not hold in general (2): nor when an implementation given for an interface is a
slice of that interface. -/
theorem C45_iface_violated (zero : Nat → List (Bytes × Val)) (fuel : Nat) :
    collectN loopEnv zero [(b "Shape", [some (.named 1)])] fuel (.ptr (.struct 1)) [] = none := by
  have key : ∀ fuel, (∀ ref, collectN loopEnv zero [(b "Shape", [some (.named 1)])] fuel (.named 1) ref = none) ∧
      (∀ ref, collectN loopEnv zero [(b "Shape", [some (.named 1)])] fuel (.iface 0) ref = none) := by
    intro fuel
    induction fuel with
    | zero => exact ⟨fun _ => rfl, fun _ => rfl⟩
    | succ n ih =>
      constructor <;> intro ref
      · have : loopEnv.resolve (loopEnv.deref (.named 1)) = .slice (.iface 0) := rfl
        simp only [collectN, this]
        exact ih.2 ref
      · have : loopEnv.resolve (loopEnv.deref (.iface 0)) = .iface 0 := rfl
        have hg : GoMap.get? [(b "Shape", [some (Ty.named 1)])] (loopEnv.iface 0).name = some [some (.named 1)] := rfl
        simp only [collectN, this, hg, List.foldlM_cons, ih.1]
        rfl
  cases fuel with
  | zero => rfl
  | succ n =>
    have : loopEnv.resolve (loopEnv.deref (.ptr (.struct 1))) = .struct 1 := rfl
    simp only [collectN, this]
    rw [if_neg (by decide)]
    simp [loopEnv, Fld.ty]
    exact (key n).2 _

end Verif.Det
