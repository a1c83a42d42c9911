import Verif.Lemmas.TemplateArgs
/-!
# Property C155: null, unknown and marked arguments of templatefile
-/
namespace Verif.Typed
open Funcs (Mark sensitiveMark)

namespace Demo

/-- One template, `t`: the value of the variable `x`, of any type; it fails if there is none. -/
def tmpl : Tmpl := ⟨Unit, fun s => if s = b "t" then some () else none, fun _ m => (GoMap.get? m (b "x")).map (.leaf [])⟩

end Demo

/-- C155: a call that answers has two arguments.  A path that is known is a text without marks, and `vars` then is not null; known `vars` then are a map or an
object. -/
theorem C155_refuses {T : Tmpl} {args : List MV} {r : MV} (h : tfCall T args = .ok r) : ∃ path vars, args = [path, vars] ∧
    (path.strip = .unk .dyn ∨ path.strip = .unk .str ∧ vars.strip.isNull = false ∨
      ∃ s, path.strip = .str s ∧ vars.strip.isNull = false ∧ (vars.strip.known = true → path.marks = [] ∧ ∃ m, VarsOf vars.strip m)) := by
  match args, h with
  | [path, vars], h =>
    refine ⟨path, vars, rfl, ?_⟩
    have hc := tfCall_case T path vars
    rw [h] at hc
    cases hc with
    | noPath hd => exact .inl hd
    | noVars hp hv =>
      rcases hp with hp | ⟨s, hs⟩
      · exact .inr (.inl ⟨hp, by rw [hv]; rfl⟩)
      · exact .inr (.inr ⟨s, hs, by rw [hv]; rfl, fun hk => by rw [hv] at hk; cases hk⟩)
    | unknown hp hn hd hu =>
      rcases hp with hp | ⟨s, hs⟩
      · exact .inr (.inl ⟨hp, hn⟩)
      · refine .inr (.inr ⟨s, hs, hn, fun hk => ?_⟩)
        rw [hs, hk] at hu
        rcases hu with h | h <;> cases h
    | known s r' hs hm hn hr =>
      obtain ⟨x, m, _, hv, _⟩ := hr
      exact .inr (.inr ⟨s, hs, hn, fun _ => ⟨hm, m, hv⟩⟩)
  | [], h => cases h
  | [_], h => cases h
  | _ :: _ :: _ :: _, h => cases h

example : tfCall Demo.tmpl [.leaf [] (.str (b "t")), .obj [] [(b "x", .leaf [b "m"] (int 3))]] = .ok (.leaf [b "m"] (int 3)) := rfl

/-- Null, other types, marks on the path. -/
example : tfCall Demo.tmpl [.leaf [] (.str (b "t")), .leaf [] (.null .dyn)] = .err ∧ tfCall Demo.tmpl [.leaf [] (.str (b "t")), .leaf [] (int 3)] = .err ∧
    tfCall Demo.tmpl [.leaf [sensitiveMark] (.str (b "t")), .obj [] [(b "x", .leaf [] (int 3))]] = .err := ⟨rfl, rfl, rfl⟩

/-- C155, partial: for known arguments, and a path without marks, the call gives what the template gives, and nothing else.  The result has the marks that it has from the
template and those of all the variables, used or not.  Missing: paths with marks, with which every call fails (`C155_violated`). -/
theorem C155_known_partial {T : Tmpl} {path vars : MV} {s : Bytes} (hp : path.strip = .str s) (hm : path.marks = []) (hn : vars.strip.isNull = false)
    (hk : vars.strip.known = true) :
    (∀ r, Renders T s vars.strip r → ∃ r', tfCall T [path, vars] = .ok r' ∧ r'.strip = r.strip ∧ ∀ a, Carries a r' ↔ Carries a r ∨ Carries a vars) ∧
    ((∀ r, ¬ Renders T s vars.strip r) → tfCall T [path, vars] = .err) := by
  rw [tfCall_known T hp hn hk]
  simp only [hm, if_true]
  constructor
  · rintro r ⟨x, m, hx, hv, he⟩
    rw [hx, Option.bind_some, tfRender_iff.2 ⟨m, hv, he⟩]
    refine ⟨_, rfl, strip_withMarks _ _, fun a => ?_⟩
    rw [withMarks_iff, deep_iff]
  · intro h
    split
    · rfl
    · next r hr =>
      obtain ⟨x, hx, hr⟩ := Option.bind_eq_some_iff.1 hr
      obtain ⟨m, h1, h2⟩ := tfRender_iff.1 hr
      exact absurd ⟨x, m, hx, h1, h2⟩ (h r)

example : Renders Demo.tmpl (b "t") (.obj [(b "x", int 3)]) (.leaf [] (int 3)) ∧ ∀ r, ¬ Renders Demo.tmpl (b "t") (.obj [(b "y", int 3)]) r := by
  refine ⟨⟨(), _, rfl, .obj _, rfl⟩, ?_⟩
  rintro r ⟨x, m, _, hv, he⟩
  cases hv; cases he

/-- C155: a path or `vars` that are not known: the result is not known, and neither is its type.  No file is read: it is so for all templates. -/
theorem C155_unknown (T : Tmpl) {path vars : MV} (hp : path.ty = .str) (hpn : path.strip.isNull = false) (hn : vars.strip.isNull = false)
    (hu : path.strip.known = false ∨ vars.strip.known = false) :
    ∃ r, tfCall T [path, vars] = .ok r ∧ r.strip = .unk .dyn ∧ (vars.strip ≠ .unk .dyn → ∀ a, Carries a r ↔ Carries a vars) := by
  have hc := tfCall_case T path vars
  have hne : tfCall T [path, vars] ≠ .err := by
    have hp' : checkArg { ty := .str } path.strip = .ok := by
      unfold checkArg
      rw [hpn, show path.strip.ty = .str from hp]; rfl
    rcases check_vars vars.strip with ⟨h, _⟩ | ⟨_, hv⟩ | ⟨_, _, hv⟩
    · rw [hn] at h; cases h
    · unfold tfCall; simp [tfParams, checkArgs, hp', hv]
    · have hb : blocked tfParams none [path.strip, vars.strip] = true := by
        rcases hu with h | h <;> simp [tfParams, blocked, h]
      have ht : tfType T path (.leaf [] vars.strip) = some .dyn := by
        unfold tfType
        rw [if_pos]
        rcases hu with h | h <;> simp [h, MV.strip]
      have hc : checkArgs tfParams none [path.strip, vars.strip] = .ok := by simp only [tfParams, checkArgs, hp', hv]
      unfold tfCall
      dsimp only; rw [hc]; dsimp only; rw [ht]; dsimp only; rw [if_pos hb]; simp
  generalize ho : tfCall T [path, vars] = o at hc hne
  cases hc with
  | err => exact absurd rfl hne
  | noPath h => rw [MV.ty, h] at hp; cases hp
  | noVars _ hv => exact ⟨_, rfl, rfl, fun h => absurd hv h⟩
  | unknown _ _ _ _ =>
    refine ⟨_, rfl, rfl, fun _ a => ?_⟩
    rw [← deep_iff a vars]
    exact ⟨carries_leaf, fun h => .here h⟩
  | known s r hs _ _ hr =>
    obtain ⟨x, m, _, hv, _⟩ := hr
    rw [hs] at hu
    rcases hu with h | h
    · cases h
    · generalize vars.strip = w at hv h
      cases hv <;> cases h

example : tfCall Demo.tmpl [.leaf [] (.unk .str), .obj [] [(b "x", .leaf [b "m"] (int 3))]] = .ok (.leaf [b "m"] (.unk .dyn)) := rfl

/-- An unknown member of `vars` does not stop the template. -/
example : tfCall Demo.tmpl [.leaf [] (.str (b "t")), .obj [] [(b "x", .leaf [] (int 3)), (b "y", .leaf [] (.unk .str))]] = .ok (.leaf [] (int 3)) := rfl

/-- C155: a call fails or gives a value; the type that was announced is that of the value, for all templates. -/
theorem C155_ends (T : Tmpl) (args : List MV) : tfCall T args = .err ∨ ∃ r, tfCall T args = .ok r := by
  match args with
  | [path, vars] =>
    have hc := tfCall_case T path vars
    generalize tfCall T [path, vars] = o at hc
    cases hc with
    | err => exact .inl rfl
    | noPath _ => exact .inr ⟨_, rfl⟩
    | noVars _ _ => exact .inr ⟨_, rfl⟩
    | unknown _ _ _ _ => exact .inr ⟨_, rfl⟩
    | known _ _ _ _ _ _ => exact .inr ⟨_, rfl⟩
  | [] => exact .inl rfl
  | [_] => exact .inl rfl
  | _ :: _ :: _ :: _ => exact .inl rfl

/-- C155, the part that holds of what is hidden: calls with the same path, without marks, and with `vars` that differ only in what is marked with `a` have results that
differ only in what is marked with `a`.  Missing: `vars` whose type is not known, and paths with marks that are not known (`C155_violated`). -/
theorem C155_hidden_partial {T : Tmpl} (a : Mark) {path vars vars' : MV} (hs : SameAll a [path, vars] [path, vars'])
    (hp : path.strip ≠ .unk .dyn) (hv : vars.strip ≠ .unk .dyn) (hv' : vars'.strip ≠ .unk .dyn)
    {r r' : MV} (h : tfCall T [path, vars] = .ok r) (h' : tfCall T [path, vars'] = .ok r') : Same a r r' := by
  have marked : ∀ {v r}, v.strip ≠ .unk .dyn → tfCall T [path, v] = .ok r → Carries a v → a ∈ r.marks := by
    intro v r hv h hc
    have hda := (deep_iff a v).2 hc
    have hcase := tfCall_case T path v
    rw [h] at hcase
    cases hcase with
    | noPath hd => exact absurd hd hp
    | noVars _ hd => exact absurd hd hv
    | unknown _ _ _ _ => exact hda
    | known _ _ _ _ _ _ => rw [marks_withMarks]; exact List.mem_append_right _ hda
  have hsame := hs.tail.head.1
  by_cases hc : Carries a vars
  · exact .hidden (marked hv h hc) (marked hv' h' (hsame.carries hc))
  · have := hs.tail.eq fun v hm => by
      rw [List.mem_singleton] at hm; subst hm; exact hc
    cases this
    rw [h] at h'; cases h'
    exact Same.refl a r

example : ∃ r r', tfCall Demo.tmpl [.leaf [] (.str (b "t")), .obj [] [(b "x", .leaf [sensitiveMark] (int 3))]] = .ok r ∧
    tfCall Demo.tmpl [.leaf [] (.str (b "t")), .obj [] [(b "x", .leaf [sensitiveMark] (int 4))]] = .ok r' ∧ r.strip = int 3 ∧ r'.strip = int 4 ∧
    sensitiveMark ∈ r.marks := ⟨_, _, rfl, rfl, rfl, rfl, List.mem_singleton.2 rfl⟩

/-- C155 is violated for paths with marks: known, they make every call fail that would give a value; not known, or with `vars` that are not, their marks are lost, since `path` has
`AllowMarked` but not `AllowUnknown`.  For `vars` whose type is not known the marks are lost as well. -/
theorem C155_violated :
    (∀ (T : Tmpl) (s : Bytes) (vars : MV), vars.strip.known = true → tfCall T [.leaf [sensitiveMark] (.str s), vars] = .err) ∧
    (∀ (T : Tmpl), tfCall T [.leaf [sensitiveMark] (.unk .str), .obj [] []] = .ok (.leaf [] (.unk .dyn))) ∧
    (∀ (T : Tmpl) (s : Bytes), tfCall T [.leaf [sensitiveMark] (.str s), .leaf [] (.unk (.map .str))] = .ok (.leaf [] (.unk .dyn))) ∧
    (∀ (T : Tmpl) (s : Bytes), tfCall T [.leaf [] (.str s), .leaf [sensitiveMark] (.unk .dyn)] = .ok (.leaf [] (.unk .dyn))) := by
  refine ⟨fun T s vars hk => ?_, fun T => rfl, fun T s => rfl, fun T s => rfl⟩
  rcases C155_ends T [.leaf [sensitiveMark] (.str s), vars] with h | ⟨r, h⟩
  · exact h
  · obtain ⟨p, v, he, hc⟩ := C155_refuses h
    cases he
    rcases hc with hc | ⟨hc, _⟩ | ⟨s', hc, _, hm⟩
    · cases hc
    · cases hc
    · cases (hm hk).1

end Verif.Typed
