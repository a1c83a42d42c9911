import Verif.Lemmas.HclHeap
/-!
# Property C156: `Marshal` of data that contain themselves or are shared
-/
namespace Verif.HclHeap
open Hcl

namespace Demo

/-- Map 0: `{"self": map 0}`.  Map 1: `{"x": list 0, "y": list 0}`, one list at two places; list 0: `[1, 2]`.  List 1: `[list 1]`. -/
def mem : Mem where
  lists := fun a => if a = 0 then [.int 1, .int 2] else if a = 1 then [.list 1] else []
  maps := fun a => if a = 0 then [(b "self", .map 0)] else if a = 1 then [(b "x", .list 0), (b "y", .list 0)] else []

/-- The order of the list. -/
def ord : Ord := fun _ a => mem.maps a

theorem orders : Orders mem ord := fun _ _ => List.Perm.refl _

theorem nested : Nested mem 2 (.map 1) := by
  intro x hx
  cases hx with
  | map h =>
    have : x = .list 0 := by
      have h' : (_, x) ∈ [(b "x", HV.list 0), (b "y", .list 0)] := h
      simp only [List.mem_cons, List.not_mem_nil, or_false, Prod.mk.injEq] at h'
      rcases h' with h | h <;> exact h.2
    subst this
    intro y hy
    cases hy with
    | list h =>
      have h' : y ∈ [HV.int 1, .int 2] := h
      simp only [List.mem_cons, List.not_mem_nil, or_false] at h'
      rcases h' with rfl | rfl <;> exact nested_leaf rfl 0

end Demo

/-- C156, partial: data in which at most `d` maps and slices are nested, shared or not, need a stack of at most `2 d + 1` calls, and the result is that of data
without sharing, with each map in some order at each place.  Missing: data that contain themselves (`C156_cycle`, `C156_violated`). -/
theorem C156_ends_partial {mem : Mem} {ord : Ord} (ho : Orders mem ord) {d : Nat} {v : HV} (hd : Nested mem d v) {n : Nat} (hn : 2 * d + 1 ≤ n) :
    (∃ g t, Unfolds mem v g ∧ Hcl.marshal g = .ok t ∧ marshal mem ord n v = .ok t) ∨
    ∃ g, Unfolds mem v g ∧ Hcl.marshal g = .error () ∧ marshal mem ord n v = .err := by
  have h1 := (enough ho d v hd).1 n hn [] 0 none
  have h2 := (good ho n).level [] 0 none v
  unfold marshal Hcl.marshal
  generalize (calls mem ord n).level [] 0 none v = o at h1 h2
  cases o with
  | ok t => obtain ⟨g, hg, he⟩ := h2; exact .inl ⟨g, t, hg, he, rfl⟩
  | err => obtain ⟨g, hg, he⟩ := h2 (unfolds_of_nested d v hd); exact .inr ⟨g, hg, he, rfl⟩
  | overflow => exact absurd rfl h1

example : Nested Demo.mem 2 (.map 1) ∧ marshal Demo.mem Demo.ord 5 (.map 1) = .ok (some (b "\n  x = [\n    1,\n    2\n  ]\n  y = [\n    1,\n    2\n  ]\n")) :=
  ⟨Demo.nested, by decide +kernel⟩

/-- C156: whatever `Marshal` writes is the text of data without sharing, and no more maps and slices are nested in it than calls. -/
theorem C156_text {mem : Mem} {ord : Ord} (ho : Orders mem ord) {n : Nat} {v : HV} {t : Option Bytes} (h : marshal mem ord n v = .ok t) :
    Nested mem n v ∧ ∃ g, Unfolds mem v g ∧ Hcl.marshal g = .ok t := by
  refine ⟨(nested_of_ok ho n).1 _ _ _ _ _ h, ?_⟩
  have := (good ho n).level [] 0 none v
  rw [show (calls mem ord n).level [] 0 none v = .ok t from h] at this
  exact this

/-- C156: data that contain themselves, at any place and by any way, are never written: the stack overflows, however large it is, or an error comes first. -/
theorem C156_cycle {mem : Mem} {ord : Ord} (ho : Orders mem ord) {v x : HV} (hx : x = v ∨ Inside mem x v) (hc : Inside mem x x) (n : Nat) :
    marshal mem ord n v = .overflow ∨ marshal mem ord n v = .err := by
  cases h : marshal mem ord n v with
  | overflow => exact .inl rfl
  | err => exact .inr rfl
  | ok t =>
    exfalso
    have hn := (C156_text ho h).1
    rcases hx with rfl | hx
    · exact not_nested_of_cycle hc n hn
    · obtain ⟨e, _, he⟩ := hn.inside hx
      exact not_nested_of_cycle hc e he

example : Inside Demo.mem (.map 0) (.map 0) ∧ Inside Demo.mem (.list 1) (.list 1) :=
  ⟨.one (.map (k := b "self") (List.mem_singleton.2 rfl)), .one (.list (List.mem_singleton.2 rfl))⟩

/-- C156: the size of the stack makes no difference but for overflow. -/
theorem C156_same {mem : Mem} {ord : Ord} {n m : Nat} (hl : n ≤ m) (v : HV) (h : marshal mem ord n v ≠ .overflow) : marshal mem ord m v = marshal mem ord n v := by
  have step : ∀ n, (∀ p l k v, (calls mem ord n).level p l k v ≠ .overflow → (calls mem ord (n + 1)).level p l k v = (calls mem ord n).level p l k v) ∧
      ∀ p nm d l k v, (calls mem ord n).loop p nm d l k v ≠ .overflow → (calls mem ord (n + 1)).loop p nm d l k v = (calls mem ord n).loop p nm d l k v := by
    intro n
    induction n with
    | zero => exact ⟨fun _ _ _ _ h => absurd rfl h, fun _ _ _ _ _ _ h => absurd rfl h⟩
    | succ n ih => exact ⟨fun p l k v => levelBody_more ih.1 ih.2 p l k v, fun p nm d l k v => loopBody_more ih.1 ih.2 p nm d l k v⟩
  induction hl with
  | refl => rfl
  | step _ ih => exact ((step _).1 _ _ _ _ (by rw [show (calls mem ord _).level [] 0 none v = marshal mem ord n v from ih]; exact h)).trans ih

example : marshal Demo.mem Demo.ord 2 (.map 1) = .overflow ∧ marshal Demo.mem Demo.ord 3 (.list 0) ≠ .overflow := by decide +kernel

/-- C156 is violated: `m := map[string]interface{}{}; m["self"] = m` and `s := make([]interface{}, 1); s[0] = s` make `Marshal` overflow every stack, whatever the order of
maps: the program ends. -/
theorem C156_violated : ∃ mem : Mem, (∀ ord n, Orders mem ord → marshal mem ord n (.map 0) = .overflow) ∧ ∀ ord n, Orders mem ord → marshal mem ord n (.list 1) = .overflow := by
  refine ⟨Demo.mem, fun ord n ho => ?_, fun ord n ho => ?_⟩
  · have he : ∀ p, ord p 0 = [(b "self", .map 0)] := fun p => List.perm_singleton.1 (ho p 0)
    have : ∀ n p l k, (calls Demo.mem ord n).level p l k (.map 0) = .overflow ∧ ∀ nm d, (calls Demo.mem ord n).loop p nm d l k (.map 0) = .overflow := by
      intro n
      induction n with
      | zero => intro p l k; exact ⟨rfl, fun _ _ => rfl⟩
      | succ n ih =>
        intro p l k
        constructor
        · change (lines _ _ _ _ _ (ord p 0)).map _ = _
          rw [he]
          unfold lines
          rw [if_neg (by decide)]
          split
          · unfold shortLine
            rw [show HV.scalar (.map 0) = none from rfl]
            dsimp only
            rw [(ih _ _ _).1]; rfl
          · rw [(ih _ _ _).2]; rfl
        · intro nm d
          change (if _ then _ else _) = _
          split
          · rw [he]; unfold labels; rw [(ih _ _ _).2]; rfl
          · rw [(ih _ _ _).1]; rfl
    exact (this n _ _ _).1
  · have : ∀ n p l k, (calls Demo.mem ord n).level p l k (.list 1) = .overflow := by
      intro n
      induction n with
      | zero => intro p l k; rfl
      | succ n ih =>
        intro p l k
        change (elems _ _ _ _ [.list 1]).map _ = _
        unfold elems
        rw [ih]; rfl
    exact this n _ _ _

end Verif.HclHeap
