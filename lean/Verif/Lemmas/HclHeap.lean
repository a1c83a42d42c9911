import Verif.Spec.HclHeap
/-!
# Lemmas about `Marshal` of values in memory
-/
namespace Verif.HclHeap
open Hcl

theorem Out.bind_ok {α β : Type} {o : Out α} {f : α → Out β} {y : β} (h : o.bind f = .ok y) : ∃ x, o = .ok x ∧ f x = .ok y := by
  cases o with
  | ok x => exact ⟨x, rfl, h⟩
  | err => cases h
  | overflow => cases h

theorem Out.map_ok {α β : Type} {o : Out α} {f : α → β} {y : β} (h : o.map f = .ok y) : ∃ x, o = .ok x ∧ f x = y := by
  obtain ⟨x, h1, h2⟩ := Out.bind_ok h
  cases h2
  exact ⟨x, h1, rfl⟩

theorem Out.bind_ne {α β : Type} {o : Out α} {f : α → Out β} (h : o ≠ .overflow) (hf : ∀ x, o = .ok x → f x ≠ .overflow) : o.bind f ≠ .overflow := by
  cases o with
  | ok x => exact hf x rfl
  | err => intro h; cases h
  | overflow => exact absurd rfl h

theorem Out.map_ne {α β : Type} {o : Out α} {f : α → β} (h : o ≠ .overflow) : o.map f ≠ .overflow := Out.bind_ne h fun x _ h => by cases h

theorem short_ne (g : GV) : short g ≠ .overflow := by
  unfold short
  cases (scalarText g).getD (.error ()) <;> (intro h; cases h)

/-! ## Nesting -/

def HV.isRef : HV → Bool
  | .list _ | .map _ => true
  | _ => false

theorem nested_leaf {mem : Mem} {v : HV} (h : v.isRef = false) (d : Nat) : Nested mem d v := by
  cases d with
  | zero => exact ⟨fun a e => (by subst e; cases h), fun a e => (by subst e; cases h)⟩
  | succ d => intro x hx; cases hx <;> cases h

theorem Nested.succ {mem : Mem} {d : Nat} {v : HV} (h : Nested mem d v) : Nested mem (d + 1) v := by
  induction d generalizing v with
  | zero =>
    refine nested_leaf ?_ 1
    cases v with
    | list a => exact absurd rfl (h.1 a)
    | map a => exact absurd rfl (h.2 a)
    | _ => rfl
  | succ d ih => intro x hx; exact ih (h x hx)

theorem Nested.mono {mem : Mem} {d e : Nat} {v : HV} (h : Nested mem d v) (hl : d ≤ e) : Nested mem e v := by
  induction hl with
  | refl => exact h
  | step _ ih => exact ih.succ

theorem Nested.inside {mem : Mem} {x y : HV} (hx : Inside mem x y) {d : Nat} (h : Nested mem d y) : ∃ e, e < d ∧ Nested mem e x := by
  induction hx generalizing d with
  | one hp =>
    cases d with
    | zero => cases hp with
      | list _ => exact absurd rfl (h.1 _)
      | map _ => exact absurd rfl (h.2 _)
    | succ d => exact ⟨d, Nat.lt_succ_self d, h _ hp⟩
  | more hp _ ih =>
    obtain ⟨e, he, hn⟩ := ih h
    cases e with
    | zero => cases hp with
      | list _ => exact absurd rfl (hn.1 _)
      | map _ => exact absurd rfl (hn.2 _)
    | succ e => exact ⟨e, by omega, hn _ hp⟩

theorem not_nested_of_cycle {mem : Mem} {x : HV} (h : Inside mem x x) : ∀ d, ¬ Nested mem d x := by
  intro d
  induction d using Nat.strongRecOn with
  | ind d ih =>
    intro hn
    obtain ⟨e, he, hn'⟩ := hn.inside h
    exact ih e he hn'

/-! ## Results have a bounded nesting -/

section ok

variable {mem : Mem} {ord : Ord} {n : Nat}

theorem elems_ok {c : Calls} {path : List Nat} {level : Nat} {P : HV → Prop} (hc : ∀ p l k v r, c.level p l k v = .ok r → P v) :
    ∀ {l : List HV} {i : Nat} {r}, elems c path level i l = .ok r → ∀ x ∈ l, P x := by
  intro l
  induction l with
  | nil => intro i r _ x hx; cases hx
  | cons v l ih =>
    intro i r h x hx
    obtain ⟨o, h1, h2⟩ := Out.bind_ok h
    obtain ⟨arr, h3, _⟩ := Out.map_ok h2
    rcases List.mem_cons.1 hx with rfl | hx
    · exact hc _ _ _ _ _ h1
    · exact ih h3 x hx

theorem lines_ok {c : Calls} {path : List Nat} {level : Nat} {kn : Option Bytes} {P : HV → Prop} (h0 : ∀ v : HV, v.isRef = false → P v)
    (hc : ∀ p l k v r, c.level p l k v = .ok r → P v) (hl : ∀ p n d l k v r, c.loop p n d l k v = .ok r → P v) :
    ∀ {m : List (Bytes × HV)} {i : Nat} {r}, lines c path level kn i m = .ok r → ∀ x ∈ m, P x.2 := by
  intro m
  induction m with
  | nil => intro i r _ x hx; cases hx
  | cons e m ih =>
    intro i r h x hx
    obtain ⟨k, v⟩ := e
    unfold lines at h
    obtain ⟨o, h1, h2⟩ := Out.bind_ok h
    obtain ⟨arr, h3, _⟩ := Out.map_ok h2
    rcases List.mem_cons.1 hx with rfl | hx
    · dsimp only
      split at h1
      · next hv => rw [hv]; exact h0 _ rfl
      · split at h1
        · unfold shortLine at h1
          split at h1
          · next hs => exact h0 _ (by cases v <;> first | rfl | cases hs)
          · obtain ⟨o', h4, _⟩ := Out.map_ok h1
            exact hc _ _ _ _ _ h4
        · exact hl _ _ _ _ _ _ _ h1
    · exact ih h3 x hx

theorem labels_ok {c : Calls} {path : List Nat} {name : Bytes} {depth level : Nat} {P : HV → Prop}
    (hl : ∀ p n d l k v r, c.loop p n d l k v = .ok r → P v) :
    ∀ {m : List (Bytes × HV)} {i : Nat} {r}, labels c path name depth level i m = .ok r → ∀ x ∈ m, P x.2 := by
  intro m
  induction m with
  | nil => intro i r _ x hx; cases hx
  | cons e m ih =>
    intro i r h x hx
    obtain ⟨k, v⟩ := e
    obtain ⟨o, h1, h2⟩ := Out.bind_ok h
    obtain ⟨arr, h3, _⟩ := Out.map_ok h2
    rcases List.mem_cons.1 hx with rfl | hx
    · exact hl _ _ _ _ _ _ _ h1
    · exact ih h3 x hx

theorem nested_of_ok (ho : Orders mem ord) : ∀ n, (∀ p l k v r, (calls mem ord n).level p l k v = .ok r → Nested mem n v) ∧
    (∀ p nm d l k v r, (calls mem ord n).loop p nm d l k v = .ok r → Nested mem n v) := by
  intro n
  induction n with
  | zero => exact ⟨fun _ _ _ _ _ h => (by cases h), fun _ _ _ _ _ _ _ h => (by cases h)⟩
  | succ n ih =>
    constructor
    · intro p l k v r h
      cases v with
      | list a =>
        obtain ⟨arr, h1, _⟩ := Out.map_ok (show (elems _ _ _ _ _).map _ = _ from h)
        intro x hx
        cases hx with
        | list hm => exact elems_ok ih.1 h1 x hm
      | map a =>
        obtain ⟨arr, h1, _⟩ := Out.map_ok (show (lines _ _ _ _ _ _).map _ = _ from h)
        intro x hx
        cases hx with
        | map hm => exact lines_ok (fun v hv => nested_leaf hv n) ih.1 ih.2 h1 _ ((ho p a).mem_iff.2 hm)
      | _ => exact nested_leaf rfl _
    · intro p nm d l k v r h
      cases v with
      | list a =>
        obtain ⟨arr, h1, _⟩ := Out.map_ok (show ((calls mem ord n).level _ _ _ _).map _ = _ from h)
        exact (ih.1 _ _ _ _ _ h1).succ
      | map a =>
        change (if _ then _ else _) = _ at h
        split at h
        · intro x hx
          cases hx with
          | map hm => exact labels_ok ih.2 h _ ((ho p a).mem_iff.2 hm)
        · obtain ⟨o, h1, _⟩ := Out.map_ok h
          exact (ih.1 _ _ _ _ _ h1).succ
      | _ => exact nested_leaf rfl _

end ok

/-! ## Enough stack -/

section enough

variable {mem : Mem} {ord : Ord}

theorem elems_ne {c : Calls} {path : List Nat} {level : Nat} : ∀ {l : List HV} {i : Nat},
    (∀ x ∈ l, ∀ p l k, c.level p l k x ≠ .overflow) → elems c path level i l ≠ .overflow := by
  intro l
  induction l with
  | nil => intro i _ h; cases h
  | cons v l ih =>
    intro i h
    exact Out.bind_ne (h v (.head _) _ _ _) fun _ _ => Out.map_ne (ih fun x hx => h x (.tail _ hx))

theorem lines_ne {c : Calls} {path : List Nat} {level : Nat} {kn : Option Bytes} : ∀ {m : List (Bytes × HV)} {i : Nat},
    (∀ x ∈ m, (∀ p l k, c.level p l k x.2 ≠ .overflow) ∧ ∀ p n d l k, c.loop p n d l k x.2 ≠ .overflow) → lines c path level kn i m ≠ .overflow := by
  intro m
  induction m with
  | nil => intro i _ h; cases h
  | cons e m ih =>
    intro i h
    obtain ⟨k, v⟩ := e
    unfold lines
    refine Out.bind_ne ?_ fun _ _ => Out.map_ne (ih fun x hx => h x (.tail _ hx))
    have hv := h _ (.head _)
    split
    · intro h; cases h
    · split
      · unfold shortLine
        split
        · exact Out.map_ne (short_ne _)
        · exact Out.map_ne (hv.1 _ _ _)
      · exact hv.2 _ _ _ _ _

theorem labels_ne {c : Calls} {path : List Nat} {name : Bytes} {depth level : Nat} : ∀ {m : List (Bytes × HV)} {i : Nat},
    (∀ x ∈ m, ∀ p n d l k, c.loop p n d l k x.2 ≠ .overflow) → labels c path name depth level i m ≠ .overflow := by
  intro m
  induction m with
  | nil => intro i _ h; cases h
  | cons e m ih =>
    intro i h
    exact Out.bind_ne (h e (.head _) _ _ _ _ _) fun _ _ => Out.map_ne (ih fun x hx => h x (.tail _ hx))

theorem level_leaf {c : Calls} {v : HV} (hv : v.isRef = false) (p : List Nat) (l : Nat) (k : Option Bytes) : levelBody mem ord c p l k v ≠ .overflow := by
  have hs : ∀ g : GV, (if g.zeroScalar then Out.ok none else (short g).map some) ≠ .overflow := by
    intro g
    split
    · intro h; cases h
    · exact Out.map_ne (short_ne _)
  cases v with
  | list a => cases hv
  | map a => cases hv
  | nil => intro h; cases h
  | nilList => intro h; cases h
  | nilMap => intro h; cases h
  | str s => exact hs _
  | bool s => exact hs _
  | int s => exact hs _
  | flt s => exact hs _

theorem loop_of_level {n : Nat} {v : HV} (hv : ∀ a, v ≠ .map a) (h : ∀ p l k, (calls mem ord n).level p l k v ≠ .overflow) (p nm d l k) :
    loopBody mem ord (calls mem ord n) p nm d l k v ≠ .overflow := by
  cases v with
  | map a => exact absurd rfl (hv a)
  | list a => exact Out.map_ne (h _ _ _)
  | nil => exact Out.map_ne (h _ _ _)
  | nilList => exact Out.map_ne (h _ _ _)
  | nilMap => exact Out.map_ne (h _ _ _)
  | str s => exact Out.map_ne (short_ne _)
  | bool s => exact Out.map_ne (short_ne _)
  | int s => exact Out.map_ne (short_ne _)
  | flt s => exact Out.map_ne (short_ne _)

theorem enough (ho : Orders mem ord) : ∀ d v, Nested mem d v → (∀ n, 2 * d + 1 ≤ n → ∀ p l k, (calls mem ord n).level p l k v ≠ .overflow) ∧
    (∀ n, 2 * d + 2 ≤ n → ∀ p nm dp l k, (calls mem ord n).loop p nm dp l k v ≠ .overflow) := by
  intro d
  induction d with
  | zero =>
    intro v hv
    have hr : v.isRef = false := by
      cases v with
      | list a => exact absurd rfl (hv.1 a)
      | map a => exact absurd rfl (hv.2 a)
      | _ => rfl
    have h1 : ∀ n, 1 ≤ n → ∀ p l k, (calls mem ord n).level p l k v ≠ .overflow := by
      intro n hn p l k
      match n, hn with
      | n + 1, _ => exact level_leaf hr p l k
    refine ⟨fun n hn => h1 n (by omega), fun n hn p nm dp l k => ?_⟩
    match n, hn with
    | n + 1, hn => exact loop_of_level hv.2 (h1 n (by omega)) p nm dp l k
  | succ d ih =>
    intro v hv
    have h1 : ∀ n, 2 * (d + 1) + 1 ≤ n → ∀ p l k, (calls mem ord n).level p l k v ≠ .overflow := by
      intro n hn p l k
      match n, hn with
      | n + 1, hn =>
        by_cases hr : v.isRef = false
        · exact level_leaf hr p l k
        cases v with
        | list a => exact Out.map_ne (elems_ne fun x hx => (ih x (hv x (.list hx))).1 n (by omega))
        | map a =>
          refine Out.map_ne (lines_ne fun x hx => ?_)
          have := ih x.2 (hv x.2 (.map (k := x.1) ((ho p a).mem_iff.1 hx)))
          exact ⟨this.1 n (by omega), this.2 n (by omega)⟩
        | _ => exact absurd rfl hr
    refine ⟨h1, fun n hn p nm dp l k => ?_⟩
    match n, hn with
    | n + 1, hn =>
      cases v with
      | map a =>
        change (if _ then _ else _) ≠ _
        split
        · exact labels_ne fun x hx => (ih x.2 (hv x.2 (.map (k := x.1) ((ho p a).mem_iff.1 hx)))).2 n (by omega)
        · exact Out.map_ne (h1 n (by omega) _ _ _)
      | list a => exact loop_of_level (by intro a h; cases h) (h1 n (by omega)) p nm dp l k
      | nil => exact loop_of_level (by intro a h; cases h) (h1 n (by omega)) p nm dp l k
      | nilList => exact loop_of_level (by intro a h; cases h) (h1 n (by omega)) p nm dp l k
      | nilMap => exact loop_of_level (by intro a h; cases h) (h1 n (by omega)) p nm dp l k
      | str s => exact loop_of_level (by intro a h; cases h) (h1 n (by omega)) p nm dp l k
      | bool s => exact loop_of_level (by intro a h; cases h) (h1 n (by omega)) p nm dp l k
      | int s => exact loop_of_level (by intro a h; cases h) (h1 n (by omega)) p nm dp l k
      | flt s => exact loop_of_level (by intro a h; cases h) (h1 n (by omega)) p nm dp l k

end enough

/-! ## More stack -/

theorem Out.bind_more {α β : Type} {o o' : Out α} {f f' : α → Out β} (h : o.bind f ≠ .overflow) (ho : o ≠ .overflow → o' = o)
    (hf : ∀ x, f x ≠ .overflow → f' x = f x) : o'.bind f' = o.bind f := by
  cases o with
  | ok x => rw [ho (by intro h; cases h)]; exact hf x h
  | err => rw [ho (by intro h; cases h)]; rfl
  | overflow => exact absurd rfl h

theorem Out.map_more {α β : Type} {o o' : Out α} {f : α → β} (h : o.map f ≠ .overflow) (ho : o ≠ .overflow → o' = o) : o'.map f = o.map f :=
  Out.bind_more h ho fun _ _ => rfl

section more

variable {mem : Mem} {ord : Ord} {c c' : Calls} (hc : ∀ p l k v, c.level p l k v ≠ .overflow → c'.level p l k v = c.level p l k v)
  (hl : ∀ p nm d l k v, c.loop p nm d l k v ≠ .overflow → c'.loop p nm d l k v = c.loop p nm d l k v)
include hc

theorem elems_more (path : List Nat) (level : Nat) : ∀ (l : List HV) (i : Nat), elems c path level i l ≠ .overflow →
    elems c' path level i l = elems c path level i l := by
  intro l
  induction l with
  | nil => intro i _; rfl
  | cons v l ih => intro i h; exact Out.bind_more h (hc _ _ _ _) fun x h => Out.map_more h (ih (i + 1))

theorem shortLine_more (path : List Nat) (name : Bytes) (level : Nat) (v : HV) (h : shortLine c path name level v ≠ .overflow) :
    shortLine c' path name level v = shortLine c path name level v := by
  unfold shortLine at h ⊢
  cases hs : v.scalar with
  | some g => rfl
  | none => rw [hs] at h; exact Out.map_more h (hc _ _ _ _)

include hl

theorem lines_more (path : List Nat) (level : Nat) (kn : Option Bytes) : ∀ (m : List (Bytes × HV)) (i : Nat), lines c path level kn i m ≠ .overflow →
    lines c' path level kn i m = lines c path level kn i m := by
  intro m
  induction m with
  | nil => intro i _; rfl
  | cons e m ih =>
    intro i h
    obtain ⟨k, v⟩ := e
    unfold lines at h ⊢
    refine Out.bind_more h ?_ fun x h => Out.map_more h (ih (i + 1))
    intro h
    by_cases hv : v = .nil
    · rw [if_pos hv, if_pos hv]
    · rw [if_neg hv] at h
      rw [if_neg hv, if_neg hv]
      by_cases hk : kn = some nmr
      · rw [if_pos hk] at h
        rw [if_pos hk, if_pos hk]; exact shortLine_more hc _ _ _ _ h
      · rw [if_neg hk] at h
        rw [if_neg hk, if_neg hk]; exact hl _ _ _ _ _ _ h

omit hc in
theorem labels_more (path : List Nat) (name : Bytes) (depth level : Nat) : ∀ (m : List (Bytes × HV)) (i : Nat), labels c path name depth level i m ≠ .overflow →
    labels c' path name depth level i m = labels c path name depth level i m := by
  intro m
  induction m with
  | nil => intro i _; rfl
  | cons e m ih => intro i h; exact Out.bind_more h (hl _ _ _ _ _ _) fun x h => Out.map_more h (ih (i + 1))

theorem levelBody_more (p : List Nat) (l : Nat) (k : Option Bytes) (v : HV) (h : levelBody mem ord c p l k v ≠ .overflow) :
    levelBody mem ord c' p l k v = levelBody mem ord c p l k v := by
  cases v with
  | list a => exact Out.map_more h (elems_more hc _ _ _ _)
  | map a => exact Out.map_more h (lines_more hc hl _ _ _ _ _)
  | _ => rfl

theorem loopBody_more (p : List Nat) (nm : Bytes) (d l : Nat) (k : Option Bytes) (v : HV) (h : loopBody mem ord c p nm d l k v ≠ .overflow) :
    loopBody mem ord c' p nm d l k v = loopBody mem ord c p nm d l k v := by
  cases v with
  | map a =>
    unfold loopBody at h ⊢
    dsimp only at h ⊢
    by_cases hh : allMaps mem d a = true
    · rw [if_pos hh] at h
      rw [if_pos hh, if_pos hh]; exact labels_more hl _ _ _ _ _ _ h
    · rw [if_neg hh] at h
      rw [if_neg hh, if_neg hh]; exact Out.map_more h (hc _ _ _ _)
  | list a => exact Out.map_more h (hc _ _ _ _)
  | nil => exact Out.map_more h (hc _ _ _ _)
  | nilList => exact Out.map_more h (hc _ _ _ _)
  | nilMap => exact Out.map_more h (hc _ _ _ _)
  | _ => rfl

end more

/-! ## The same text as for values without addresses -/

section tree

variable {mem : Mem} {ord : Ord}

theorem unfolds_all {e : List (Bytes × HV)} {m : List (Bytes × GV)} (h : UnfoldsM mem e m) : ∀ x ∈ e, ∃ v, Unfolds mem x.2 v := by
  induction e generalizing m with
  | nil => intro x hx; cases hx
  | cons y e ih =>
    cases h with
    | cons h1 h2 =>
      intro x hx
      rcases List.mem_cons.1 hx with rfl | hx
      · exact ⟨_, h1⟩
      · exact ih h2 x hx

theorem unfoldsM_of_all {e : List (Bytes × HV)} (h : ∀ x ∈ e, ∃ v, Unfolds mem x.2 v) : ∃ m, UnfoldsM mem e m := by
  induction e with
  | nil => exact ⟨_, .nil⟩
  | cons y e ih =>
    obtain ⟨v, hv⟩ := h y (.head _)
    obtain ⟨m, hm⟩ := ih fun x hx => h x (.tail _ hx)
    exact ⟨_, .cons (k := y.1) hv hm⟩

theorem unfoldsL_of_all {e : List HV} (h : ∀ x ∈ e, ∃ v, Unfolds mem x v) : ∃ m, UnfoldsL mem e m := by
  induction e with
  | nil => exact ⟨_, .nil⟩
  | cons y e ih =>
    obtain ⟨v, hv⟩ := h y (.head _)
    obtain ⟨m, hm⟩ := ih fun x hx => h x (.tail _ hx)
    exact ⟨_, .cons hv hm⟩

theorem unfolds_leaf {v : HV} (h : v.isRef = false) : ∃ g, Unfolds mem v g := by
  cases v with
  | list a => cases h
  | map a => cases h
  | nil => exact ⟨_, .nil⟩
  | nilList => exact ⟨_, .nilList⟩
  | nilMap => exact ⟨_, .nilMap⟩
  | str s => exact ⟨_, .str s⟩
  | bool s => exact ⟨_, .bool s⟩
  | int s => exact ⟨_, .int s⟩
  | flt s => exact ⟨_, .flt s⟩

theorem unfolds_of_nested : ∀ d v, Nested mem d v → ∃ g, Unfolds mem v g := by
  intro d
  induction d with
  | zero =>
    intro v hv
    refine unfolds_leaf ?_
    cases v with
    | list a => exact absurd rfl (hv.1 a)
    | map a => exact absurd rfl (hv.2 a)
    | _ => rfl
  | succ d ih =>
    intro v hv
    cases v with
    | list a =>
      obtain ⟨l, hl⟩ := unfoldsL_of_all fun x hx => ih x (hv x (.list hx))
      exact ⟨_, .list hl⟩
    | map a =>
      obtain ⟨m, hm⟩ := unfoldsM_of_all fun x hx => ih x.2 (hv x.2 (.map (k := x.1) hx))
      exact ⟨_, .map (List.Perm.refl _) hm⟩
    | _ => exact unfolds_leaf rfl

/-- A result is that of a value without addresses that fits. -/
def Agree {α β : Type} (U : β → Prop) (f : β → Except Unit α) (o : Out α) : Prop :=
  match o with
  | .ok r => ∃ v, U v ∧ f v = .ok r
  | .err => (∃ v, U v) → ∃ v, U v ∧ f v = .error ()
  | .overflow => True

theorem Agree.map {α β γ : Type} {U : β → Prop} {f : β → Except Unit α} {o : Out α} (F : α → γ) (h : Agree U f o) :
    Agree U (fun v => (f v).map F) (o.map F) := by
  cases o with
  | ok r => obtain ⟨v, h1, h2⟩ := h; exact ⟨v, h1, by dsimp only; rw [h2]; rfl⟩
  | err => intro hu; obtain ⟨v, h1, h2⟩ := h hu; exact ⟨v, h1, by dsimp only; rw [h2]; rfl⟩
  | overflow => trivial

theorem Agree.congr {α β : Type} {U : β → Prop} {f g : β → Except Unit α} {o : Out α} (h : Agree U f o) (he : ∀ v, U v → f v = g v) : Agree U g o := by
  cases o with
  | ok r => obtain ⟨v, h1, h2⟩ := h; exact ⟨v, h1, by rw [← he v h1]; exact h2⟩
  | err => intro hu; obtain ⟨v, h1, h2⟩ := h hu; exact ⟨v, h1, by rw [← he v h1]; exact h2⟩
  | overflow => trivial

theorem Agree.pair {α1 α2 α β1 β2 β : Type} {U1 : β1 → Prop} {U2 : β2 → Prop} {U : β → Prop} {f1 : β1 → Except Unit α1} {f2 : β2 → Except Unit α2}
    {f : β → Except Unit α} {o1 : Out α1} {o2 : Out α2} (G : α1 → α2 → α) (mk : β1 → β2 → β) (h1 : Agree U1 f1 o1) (h2 : Agree U2 f2 o2)
    (hmk : ∀ a c, U1 a → U2 c → U (mk a c)) (hinv : ∀ v, U v → (∃ a, U1 a) ∧ ∃ c, U2 c)
    (hf : ∀ a c, U1 a → U2 c → f (mk a c) = (f1 a).bind fun x => (f2 c).map fun y => G x y) :
    Agree U f (o1.bind fun x => o2.map fun y => G x y) := by
  cases o1 with
  | ok x =>
    obtain ⟨a, ha, hfa⟩ := h1
    cases o2 with
    | ok y =>
      obtain ⟨c, hc, hfc⟩ := h2
      exact ⟨mk a c, hmk a c ha hc, by rw [hf a c ha hc, hfa, hfc]; rfl⟩
    | err =>
      rintro ⟨v, hv⟩
      obtain ⟨c, hc, hfc⟩ := h2 (hinv v hv).2
      exact ⟨mk a c, hmk a c ha hc, by rw [hf a c ha hc, hfa, hfc]; rfl⟩
    | overflow => trivial
  | err =>
    rintro ⟨v, hv⟩
    obtain ⟨a, ha, hfa⟩ := h1 (hinv v hv).1
    obtain ⟨c, hc⟩ := (hinv v hv).2
    exact ⟨mk a c, hmk a c ha hc, by rw [hf a c ha hc, hfa]; rfl⟩
  | overflow => trivial

/-- Both functions give the results of the functions of `Model/HclPrint`. -/
structure Good (mem : Mem) (c : Calls) : Prop where
  level : ∀ p l k v, Agree (Unfolds mem v) (encV l k) (c.level p l k v)
  loop : ∀ p nm d l k v, Agree (Unfolds mem v) (encLine nm d l k) (c.loop p nm d l k v)

theorem elems_agree {c : Calls} (hc : Good mem c) (path : List Nat) (level : Nat) : ∀ (l : List HV) (i : Nat),
    Agree (UnfoldsL mem l) (encList level) (elems c path level i l) := by
  intro l
  induction l with
  | nil => intro i; exact ⟨[], .nil, by rw [encList]⟩
  | cons v l ih =>
    intro i
    refine Agree.pair _ (fun a c => a :: c) (hc.level (i :: path) (level + 1) (some nmr) v) (ih (i + 1)) (fun a c ha hc => .cons ha hc) ?_ ?_
    · intro w hw
      cases hw with
      | cons h1 h2 => exact ⟨⟨_, h1⟩, ⟨_, h2⟩⟩
    · intro a c _ _; rw [encList]

theorem short_agree {g : GV} {h : HV} (hs : h.scalar = some g) (F : Bytes → List Bytes) :
    Agree (Unfolds mem h) (fun v => ((scalarText v).getD (.error ())).map F) ((short g).map F) := by
  have : Agree (Unfolds mem h) (fun v => (scalarText v).getD (.error ())) (short g) := by
    have hu : Unfolds mem h g ∧ ∀ v, Unfolds mem h v → v = g := by
      cases h with
      | str s => cases hs; exact ⟨.str s, fun v hv => by cases hv; rfl⟩
      | bool s => cases hs; exact ⟨.bool s, fun v hv => by cases hv; rfl⟩
      | int s => cases hs; exact ⟨.int s, fun v hv => by cases hv; rfl⟩
      | flt s => cases hs; exact ⟨.flt s, fun v hv => by cases hv; rfl⟩
      | _ => cases hs
    unfold short
    cases he : (scalarText g).getD (.error ()) with
    | ok x => exact ⟨g, hu.1, he⟩
    | error x => intro _; exact ⟨g, hu.1, he⟩
  exact this.map F

theorem shortLine_agree {c : Calls} (hc : Good mem c) (path : List Nat) (name : Bytes) (level : Nat) (v : HV) :
    Agree (Unfolds mem v) (encShort name level) (shortLine c path name level v) := by
  unfold shortLine
  split
  · next g hs =>
    refine (short_agree (mem := mem) hs _).congr fun w hw => ?_
    cases hw <;> first | cases hs; done | (rw [encShort])
  · next hs =>
    refine ((hc.level path (level + 1) none v).map _).congr fun w hw => ?_
    cases hw with
    | nil => rw [encV, encShort]; rfl
    | nilList => rw [encV, encShort]; rfl
    | nilMap => rw [encV, encShort]; rfl
    | list _ => rw [encV, encShort]; cases encList (level + 1) _ <;> rfl
    | map _ _ => rw [encV, encShort]; cases encMap (level + 1) none _ <;> rfl
    | _ => cases hs

theorem lines_agree {c : Calls} (hc : Good mem c) (path : List Nat) (level : Nat) (kn : Option Bytes) : ∀ (m : List (Bytes × HV)) (i : Nat),
    Agree (UnfoldsM mem m) (encMap level kn) (lines c path level kn i m) := by
  intro m
  induction m with
  | nil => intro i; exact ⟨[], .nil, by rw [encMap]⟩
  | cons e m ih =>
    intro i
    obtain ⟨k, v⟩ := e
    have h1 : Agree (Unfolds mem v) (fun w => if w.isNil then .ok [assign k (b "null()")] else if kn = some nmr then encShort k level w else encLine k 0 level kn w)
        (if v = .nil then .ok [assign k (b "null()")] else if kn = some nmr then shortLine c (i :: path) k level v else c.loop (i :: path) k 0 level kn v) := by
      by_cases hv : v = .nil
      · subst hv
        exact ⟨.nil, .nil, rfl⟩
      · rw [if_neg hv]
        have hn : ∀ w, Unfolds mem v w → w.isNil = false := by
          intro w hw
          cases hw <;> first | rfl | exact absurd rfl hv
        by_cases hk : kn = some nmr
        · rw [if_pos hk]
          exact (shortLine_agree hc _ _ _ _).congr fun w hw => by rw [hn w hw, if_pos hk]; rfl
        · rw [if_neg hk]
          exact (hc.loop _ _ _ _ _ _).congr fun w hw => by rw [hn w hw, if_neg hk]; rfl
    unfold lines
    refine Agree.pair _ (fun a c => (k, a) :: c) h1 (ih (i + 1)) (fun a c ha hc => .cons ha hc) ?_ ?_
    · intro w hw
      cases hw with
      | cons h1 h2 => exact ⟨⟨_, h1⟩, ⟨_, h2⟩⟩
    · intro a c _ _; rw [encMap]

theorem labels_agree {c : Calls} (hc : Good mem c) (path : List Nat) (name : Bytes) (depth level : Nat) : ∀ (m : List (Bytes × HV)) (i : Nat),
    Agree (UnfoldsM mem m) (encHash name depth level) (labels c path name depth level i m) := by
  intro m
  induction m with
  | nil => intro i; exact ⟨[], .nil, by rw [encHash]⟩
  | cons e m ih =>
    intro i
    obtain ⟨k, v⟩ := e
    unfold labels
    refine Agree.pair _ (fun a c => (k, a) :: c) (hc.loop _ _ _ _ _ _) (ih (i + 1)) (fun a c ha hc => .cons ha hc) ?_ ?_
    · intro w hw
      cases hw with
      | cons h1 h2 => exact ⟨⟨_, h1⟩, ⟨_, h2⟩⟩
    · intro a c _ _; rw [encHash]

theorem isMap_eq {h : HV} {v : GV} (hu : Unfolds mem h v) : v.isMap = h.isMap := by cases hu <;> rfl

theorem all_maps {e : List (Bytes × HV)} {m : List (Bytes × GV)} (h : UnfoldsM mem e m) :
    m.isEmpty = e.isEmpty ∧ m.all (fun e => e.2.isMap) = e.all (fun e => e.2.isMap) := by
  induction e generalizing m with
  | nil => cases h; exact ⟨rfl, rfl⟩
  | cons y e ih =>
    cases h with
    | cons h1 h2 => exact ⟨rfl, by simp only [List.all_cons]; rw [(ih h2).2, isMap_eq h1]⟩

theorem perm_all {α : Type} {l l' : List α} (h : l.Perm l') (f : α → Bool) : l.all f = l'.all f := by
  rw [Bool.eq_iff_iff, List.all_eq_true, List.all_eq_true]
  exact ⟨fun H x hx => H x (h.mem_iff.2 hx), fun H x hx => H x (h.mem_iff.1 hx)⟩

theorem perm_empty {α : Type} {l l' : List α} (h : l.Perm l') : l.isEmpty = l'.isEmpty := by
  have := h.length_eq
  cases l <;> cases l' <;> first | rfl | (simp at this)

theorem hashAll_eq {e : List (Bytes × HV)} {m : List (Bytes × GV)} {a : Nat} (hp : e.Perm (mem.maps a)) (h : UnfoldsM mem e m) (depth : Nat) :
    hashAll depth m = allMaps mem depth a := by
  unfold hashAll allMaps
  rw [(all_maps h).1, (all_maps h).2, perm_all hp, perm_empty hp]

/-- A map in another order. -/
theorem Agree.ofM {α : Type} {a : Nat} {e : List (Bytes × HV)} {f : List (Bytes × GV) → Except Unit α} {g : GV → Except Unit α} {o : Out α}
    (hp : e.Perm (mem.maps a)) (h : Agree (UnfoldsM mem e) f o) (hg : ∀ m, UnfoldsM mem e m → g (.map m) = f m) : Agree (Unfolds mem (.map a)) g o := by
  cases o with
  | ok r => obtain ⟨m, h1, h2⟩ := h; exact ⟨.map m, .map hp h1, by rw [hg m h1]; exact h2⟩
  | err =>
    rintro ⟨v, hv⟩
    cases hv with
    | map hp' hm =>
      have := unfoldsM_of_all (mem := mem) (e := e) fun x hx => unfolds_all hm x (hp'.mem_iff.2 (hp.mem_iff.1 hx))
      obtain ⟨m, h1, h2⟩ := h this
      exact ⟨.map m, .map hp h1, by rw [hg m h1]; exact h2⟩
  | overflow => trivial

theorem Agree.ofL {α : Type} {a : Nat} {f : List GV → Except Unit α} {g : GV → Except Unit α} {o : Out α}
    (h : Agree (UnfoldsL mem (mem.lists a)) f o) (hg : ∀ m, g (.list m) = f m) : Agree (Unfolds mem (.list a)) g o := by
  cases o with
  | ok r => obtain ⟨m, h1, h2⟩ := h; exact ⟨.list m, .list h1, by rw [hg m]; exact h2⟩
  | err =>
    rintro ⟨v, hv⟩
    cases hv with
    | list hl =>
      obtain ⟨m, h1, h2⟩ := h ⟨_, hl⟩
      exact ⟨.list m, .list h1, by rw [hg m]; exact h2⟩
  | overflow => trivial

theorem level_scalar {g : GV} {h : HV} (hs : h.scalar = some g) (l : Nat) (k : Option Bytes) :
    Agree (Unfolds mem h) (encV l k) (if g.zeroScalar then .ok none else (short g).map some) := by
  have hu : Unfolds mem h g ∧ encV l k g = if g.zeroScalar then .ok none else ((scalarText g).getD (.error ())).map some := by
    cases h with
    | str s => cases hs; exact ⟨.str s, by rw [encV]⟩
    | bool s => cases hs; exact ⟨.bool s, by rw [encV]⟩
    | int s => cases hs; exact ⟨.int s, by rw [encV]⟩
    | flt s => cases hs; exact ⟨.flt s, by rw [encV]⟩
    | _ => cases hs
  by_cases hz : g.zeroScalar = true
  · rw [if_pos hz]
    exact ⟨g, hu.1, by rw [hu.2, if_pos hz]⟩
  · rw [if_neg hz]
    unfold short
    cases he : (scalarText g).getD (.error ()) with
    | ok x => exact ⟨g, hu.1, by rw [hu.2, if_neg hz, he]; rfl⟩
    | error x => intro _; exact ⟨g, hu.1, by rw [hu.2, if_neg hz, he]; rfl⟩

theorem good (ho : Orders mem ord) : ∀ n, Good mem (calls mem ord n) := by
  intro n
  induction n with
  | zero => exact ⟨fun _ _ _ _ => trivial, fun _ _ _ _ _ _ => trivial⟩
  | succ n ih =>
    constructor
    · intro p l k v
      change Agree _ _ (levelBody mem ord (calls mem ord n) p l k v)
      cases v with
      | list a => exact Agree.ofL ((elems_agree ih p l _ 0).map _) fun m => by rw [encV]
      | map a => exact Agree.ofM (ho p a) ((lines_agree ih p l k _ 0).map _) fun m _ => by rw [encV]
      | nil => exact ⟨.nil, .nil, by rw [encV]⟩
      | nilList => exact ⟨.nilList, .nilList, by rw [encV]⟩
      | nilMap => exact ⟨.nilMap, .nilMap, by rw [encV]⟩
      | str s => exact level_scalar rfl l k
      | bool s => exact level_scalar rfl l k
      | int s => exact level_scalar rfl l k
      | flt s => exact level_scalar rfl l k
    · intro p nm d l k v
      change Agree _ _ (loopBody mem ord (calls mem ord n) p nm d l k v)
      cases v with
      | map a =>
        change Agree _ _ (if _ then _ else _)
        by_cases hh : allMaps mem d a = true
        · rw [if_pos hh]
          exact Agree.ofM (ho p a) (labels_agree ih p nm d l _ 0) fun m hm => by rw [encLine, hashAll_eq (ho p a) hm, if_pos hh]
        · rw [if_neg hh]
          refine ((ih.level p (l + 1) (some nm) (.map a)).map _).congr fun w hw => ?_
          cases hw with
          | map hp hm => rw [encLine, hashAll_eq hp hm, if_neg hh, encV]; cases encMap (l + 1) (some nm) _ <;> rfl
      | nilMap =>
        refine ((ih.level p (l + 1) (some nm) .nilMap).map _).congr fun w hw => ?_
        cases hw; rw [encV, encLine]; rfl
      | nil =>
        refine ((ih.level p (l + 1) none .nil).map _).congr fun w hw => ?_
        cases hw; rw [encV, encLine]; rfl
      | nilList =>
        refine ((ih.level p (l + 1) none .nilList).map _).congr fun w hw => ?_
        cases hw; rw [encV, encLine]; rfl
      | list a =>
        refine ((ih.level p (l + 1) none (.list a)).map _).congr fun w hw => ?_
        cases hw
        rw [encV, encLine]
        cases encList (l + 1) _ with
        | ok x => cases k <;> rfl
        | error x => rfl
      | str s => exact (short_agree (mem := mem) (h := .str s) rfl _).congr fun w hw => by cases hw; rw [encLine]
      | bool s => exact (short_agree (mem := mem) (h := .bool s) rfl _).congr fun w hw => by cases hw; rw [encLine]
      | int s => exact (short_agree (mem := mem) (h := .int s) rfl _).congr fun w hw => by cases hw; rw [encLine]
      | flt s => exact (short_agree (mem := mem) (h := .flt s) rfl _).congr fun w hw => by cases hw; rw [encLine]

end tree

end Verif.HclHeap
