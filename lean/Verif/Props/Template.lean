import Verif.Lemmas.Template
import Verif.Props.File
import Verif.Props.Call
/-!
# C104: templatefile

`templatefile(path, vars)` gives the value of the template in the file, with the variables `vars` and the functions of the
caller except `templatefile` itself, for every path that the caller may give.

This fails for a path with marks (`C104_violated`), although the function allows marks on it.
-/
namespace Verif.Template
open Verif.Fn Verif.Hcl Verif.Funcs Verif.File

/-- The functions that a template can call: those of the caller, but not `templatefile`. -/
def Given (given : GoMap Bytes HclFn) (n : Bytes) (vs : List Cty) (w : Cty) : Prop :=
  n ≠ b "templatefile" ∧ n ≠ b "core::templatefile" ∧ ∃ f, GoMap.get? given n = some f ∧ f vs = some w

theorem means_stubbed {nfc : Bytes → Bytes} {given : GoMap Bytes HclFn} {n : Bytes} {vs : List Cty} {w : Cty} :
    Means nfc (.hcl (some (stubbed given))) n vs w ↔ Given given n vs w := by
  unfold Means Given
  constructor
  · rintro ⟨t, f, ht, hf, hv⟩
    cases ht
    rw [get?_stubbed] at hf
    obtain ⟨g, hg, rfl⟩ := Option.map_eq_some_iff.1 hf
    cases hs : isSelf n with
    | true => rw [hs] at hv; simp at hv
    | false =>
      rw [hs] at hv
      unfold isSelf at hs
      simp only [Bool.or_eq_false_iff, decide_eq_false_iff_not] at hs
      exact ⟨hs.1, hs.2, g, hg, by simpa using hv⟩
  · rintro ⟨h1, h2, f, hf, hv⟩
    have hs : isSelf n = false := by simp [isSelf, h1, h2]
    refine ⟨_, f, rfl, ?_, hv⟩
    rw [get?_stubbed, hf, hs]
    rfl

variable {nfc quote : Bytes → Bytes} {parse : Bytes → Option X} {valid : Bytes → Bool} {fs : FS} {home : Option Bytes}
  {base : Bytes} {env : Env} {given : GoMap Bytes HclFn}

/-- What `renderTmpl` gives. -/
theorem render_iff {x : X} {vars v : Cty} : renderTmpl valid env given x vars = .ok v ↔
    ∃ m, vars = .object m ∧ (∀ e ∈ m, valid e.1 = true) ∧ Den { env with vars := m } (Given given) x v := by
  have hF : (Means env.nfc (.hcl (some (stubbed given)))) = Given given := by
    funext n vs w; exact propext means_stubbed
  unfold renderTmpl
  constructor
  · intro h
    split at h
    · next m =>
      split at h
      · cases h
      · next h1 =>
        split at h
        · cases h
        · refine ⟨m, rfl, by simpa using h1, ?_⟩
          have := (value_iff (env := { env with vars := m }) x v).1 h
          rwa [hF] at this
    · cases h
  · rintro ⟨m, rfl, h1, h2⟩
    have hv := den_vars (env := { env with vars := m }) x v h2
    simp only
    rw [if_neg (by simpa using h1), if_neg (by simpa [Option.isSome_iff_ne_none] using hv)]
    rw [← hF] at h2
    exact (value_iff (env := { env with vars := m }) x v).2 h2

/-- **C104, in part.**  For a path without marks the result is exactly the value of the template in the file.  Missing: paths
with marks. -/
theorem C104_partial {p : Bytes} {vars : Cty} {r : Marked Cty} :
    templatefile nfc quote parse valid fs home base env given ⟨p, []⟩ vars = .ok r ↔
      ∃ src x m, Holds fs home base p src ∧ IsUtf8 src ∧ parse (nfc src) = some x ∧ vars = .object m ∧
        (∀ e ∈ m, valid e.1 = true) ∧ Den { env with vars := m } (Given given) x r.v ∧ r.marks = [] := by
  unfold templatefile loadTmpl
  constructor
  · intro h
    cases hf : file nfc quote fs home base false ⟨p, []⟩ with
    | error e => rw [hf] at h; cases h
    | ok t =>
      obtain ⟨src, h1, h2, h3⟩ := C89_file.1 hf
      subst h3
      rw [hf] at h
      simp only [ne_eq, not_true_eq_false, if_false] at h
      cases hp : parse (nfc src) with
      | none => rw [hp] at h; cases h
      | some x =>
        rw [hp] at h
        simp only [ofOption] at h
        obtain ⟨v, hv, rfl⟩ := map_ok.1 h
        obtain ⟨m, rfl, h4, h5⟩ := render_iff.1 hv
        exact ⟨src, x, m, h1, h2, hp, rfl, h4, h5, rfl⟩
  · rintro ⟨src, x, m, h1, h2, h3, rfl, h4, h5, h6⟩
    rw [C89_file.2 ⟨src, h1, h2, rfl⟩]
    simp only [ne_eq, not_true_eq_false, if_false, h3, ofOption]
    rw [map_ok]
    refine ⟨r.v, render_iff.2 ⟨m, rfl, h4, h5⟩, ?_⟩
    cases r; simp_all

/-- A file `/w/t` with the text `u(x)`, and a file `/w/r` with the text `r`. -/
def exFS : FS where
  stat q := if q = b "/w/t" ∨ q = b "/w/r" then .ok .regular else .error .notExist
  openRead q := if q = b "/w/t" then .ok (.ok (b "u(x)")) else if q = b "/w/r" then .ok (.ok (b "r")) else .error .notExist

/-- What the texts of the two files stand for. -/
def exParse (t : Bytes) : Option X :=
  if t = b "u(x)" then some (.op (b "!") [.call (b "upper") [.var (b "x")]])
  else if t = b "r" then some (.tuple [.call (b "core::templatefile") [.lit (.str (b "t")), .object []]]) else none

/-- The functions of the caller, `templatefile` among them. -/
def exGiven : GoMap Bytes HclFn := [(b "core::templatefile", fun _ => some (.num 1)), (b "upper", exUp)]

/-- The function with these parts. -/
def exTmpl (path : Marked Bytes) (vars : Cty) : Except Fail (Marked Cty) :=
  templatefile id id exParse (fun n => decide (n ≠ [])) exFS none (b "/w") exEnv exGiven path vars

example : exTmpl ⟨b "t", []⟩ (.object [(b "x", .str (b "hi"))]) = .ok ⟨.str (b "HI!"), []⟩ := by rfl
/-- The variables of the caller are not visible: `x` is among those of `exEnv`. -/
example : exTmpl ⟨b "t", []⟩ (.object []) = .error .err := by rfl
example : exTmpl ⟨b "t", []⟩ (.object [(b "x", .str (b "hi")), ([], .null)]) = .error .err := by rfl
example : exTmpl ⟨b "r", []⟩ (.object []) = .error .err := by rfl

/-- A path with marks never works, whatever is in the file. -/
theorem C104_marked {path : Marked Bytes} (h : path.marks ≠ []) (vars : Cty) :
    templatefile nfc quote parse valid fs home base env given path vars = .error .err := by
  unfold templatefile loadTmpl
  cases hf : file nfc quote fs home base false path with
  | error e => rfl
  | ok t =>
    have hm : t.marks = path.marks := by
      unfold file at hf
      split at hf
      · cases hf
      · simp only [Bool.false_eq_true, if_false] at hf
        split at hf
        · cases hf; rfl
        · cases hf
    simp only [hm, ne_eq, h, not_false_eq_true, if_true]

/-- **C104 fails**: `templatefile(sensitive("t"), …)` is an error where `templatefile("t", …)` has a value. -/
theorem C104_violated : ∃ (p : Bytes) (vars v : Cty), exTmpl ⟨p, []⟩ vars = .ok ⟨v, []⟩ ∧
    exTmpl ⟨p, [sensitiveMark]⟩ vars = .error .err :=
  ⟨b "t", .object [(b "x", .str (b "hi"))], .str (b "HI!"), rfl, C104_marked (by simp) _⟩

/-- The function that the caller has under the names of `templatefile` does not matter: the template never gets to call it,
so no file is read but the one that is given. -/
theorem C104_noself {given' : GoMap Bytes HclFn}
    (h : ∀ n, n ≠ b "templatefile" → n ≠ b "core::templatefile" → GoMap.get? given n = GoMap.get? given' n) (path : Marked Bytes) (vars : Cty) (r : Marked Cty) :
    templatefile nfc quote parse valid fs home base env given path vars = .ok r ↔
      templatefile nfc quote parse valid fs home base env given' path vars = .ok r := by
  have hG : Given given = Given given' := by
    funext n vs w
    unfold Given
    apply propext
    constructor
    · rintro ⟨h1, h2, f, hf, hv⟩; exact ⟨h1, h2, f, by rw [← h n h1 h2]; exact hf, hv⟩
    · rintro ⟨h1, h2, f, hf, hv⟩; exact ⟨h1, h2, f, by rw [h n h1 h2]; exact hf, hv⟩
  obtain ⟨p, ms⟩ := path
  by_cases hm : ms = []
  · subst hm
    rw [C104_partial, C104_partial, hG]
  · rw [C104_marked (path := ⟨p, ms⟩) hm, C104_marked (path := ⟨p, ms⟩) hm]

example : ∀ n, n ≠ b "templatefile" → n ≠ b "core::templatefile" →
    GoMap.get? exGiven n = GoMap.get? [(b "upper", exUp)] n := by
  intro n _ h
  simp [exGiven, GoMap.get?, Ne.symm h]

/-- A template that calls `templatefile` anywhere is an error. -/
theorem C104_refused {p src : Bytes} {x : X} (hh : Holds fs home base p src) (hp : parse (nfc src) = some x)
    (hc : ¬ CallsOnly (fun n => n ≠ b "templatefile" ∧ n ≠ b "core::templatefile") x) (vars : Cty) :
    ∃ e, templatefile nfc quote parse valid fs home base env given ⟨p, []⟩ vars = .error e := by
  cases hr : templatefile nfc quote parse valid fs home base env given ⟨p, []⟩ vars with
  | error e => exact ⟨e, rfl⟩
  | ok r =>
    obtain ⟨src', x', m, h1, _, h3, _, _, h5, _⟩ := C104_partial.1 hr
    have hsrc : src' = src := by
      obtain ⟨q, hq, ho⟩ := hh
      obtain ⟨q', hq', ho'⟩ := h1
      rw [hq] at hq'; cases hq'
      rw [ho] at ho'; cases ho'; rfl
    subst hsrc
    rw [hp] at h3
    cases h3
    exact absurd (den_calls (fun _ _ _ h => ⟨h.1, h.2.1⟩) x _ h5) hc

example : Holds exFS none (b "/w") (b "r") (b "r") ∧
    exParse (b "r") = some (.tuple [.call (b "core::templatefile") [.lit (.str (b "t")), .object []]]) ∧
    ¬ CallsOnly (fun n => n ≠ b "templatefile" ∧ n ≠ b "core::templatefile")
      (.tuple [.call (b "core::templatefile") [.lit (.str (b "t")), .object []]]) := by
  refine ⟨⟨b "/w/r", by rfl, by rfl⟩, by rfl, ?_⟩
  simp [CallsOnly, CallsOnlyL]

end Verif.Template
