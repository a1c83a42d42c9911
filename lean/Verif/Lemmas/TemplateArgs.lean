import Verif.Spec.TemplateArgs
import Verif.Lemmas.TypedMarks
/-!
# Lemmas about the arguments of templatefile
-/
namespace Verif.Typed
open Funcs (Mark)

theorem cmp_self (t : Ty) : cmp true t t = true := (cmp_iff t t).2 (Fits.refl t)

theorem withMarks_iff {a : Mark} {v : MV} {ms : List Mark} : Carries a (v.withMarks ms) ↔ Carries a v ∨ a ∈ ms := by
  refine ⟨carries_withMarks, ?_⟩
  rintro (h | h)
  · cases h with
    | here h => exact .here (by rw [marks_withMarks]; exact List.mem_append_left _ h)
    | list h1 h2 => exact .list h1 h2
    | map h1 h2 => exact .map h1 h2
    | tup h1 h2 => exact .tup h1 h2
    | obj h1 h2 => exact .obj h1 h2
  · exact .here (by rw [marks_withMarks]; exact List.mem_append_right _ h)

theorem asString_unmark {v : MV} {s : Bytes} (h : v.strip = .str s) : v.unmark.asString = some s := by
  cases v with
  | leaf ms w => simp only [MV.strip] at h; subst h; rfl
  | list ms e l => simp [MV.strip] at h
  | map ms e l => simp [MV.strip] at h
  | tup ms l => simp [MV.strip] at h
  | obj ms l => simp [MV.strip] at h

theorem tfLoad_eq (T : Tmpl) {path : MV} {s : Bytes} (h : path.strip = .str s) : tfLoad T path = if path.marks = [] then T.load s else none := by
  unfold tfLoad
  rw [asString_unmark h]
  dsimp only
  cases hl : T.load s with
  | none => simp
  | some x => by_cases hm : path.marks = [] <;> simp [hm]

theorem tfRender_iff {T : Tmpl} {x : T.X} {v : V} {r : MV} : tfRender T x (.leaf [] v) = some r ↔ ∃ m, VarsOf v m ∧ T.eval x m = some r := by
  constructor
  · intro h
    unfold tfRender at h
    split at h
    · next heq => cases heq; exact ⟨_, .map _ _, h⟩
    · next heq => cases heq; exact ⟨_, .obj _, h⟩
    · cases h
  · rintro ⟨m, hv, he⟩
    cases hv <;> exact he

theorem check_path {v : V} (h : checkArg { ty := .str } v = .ok) : v = .unk .str ∨ ∃ s, v = .str s := by
  cases v with
  | unk t => cases t <;> first | exact .inl rfl | cases h
  | str s => exact .inr ⟨s, rfl⟩
  | null t => cases h
  | bool x => cases h
  | num x => cases h
  | list e l => simp [checkArg, V.isNull, V.ty, cmp] at h
  | set e l => simp [checkArg, V.isNull, V.ty, cmp] at h
  | map e l => simp [checkArg, V.isNull, V.ty, cmp] at h
  | tup l => simp [checkArg, V.isNull, V.ty, cmp] at h
  | obj l => simp [checkArg, V.isNull, V.ty, cmp] at h
  | typ t => cases h

theorem check_path_dyn {v : V} (h : checkArg { ty := .str } v = .dyn) : v = .unk .dyn := by
  cases v with
  | unk t => cases t <;> first | rfl | (simp [checkArg, V.isNull, V.ty, cmp] at h)
  | str s => cases h
  | null t => cases h
  | bool x => cases h
  | num x => cases h
  | list e l => simp [checkArg, V.isNull, V.ty, cmp] at h
  | set e l => simp [checkArg, V.isNull, V.ty, cmp] at h
  | map e l => simp [checkArg, V.isNull, V.ty, cmp] at h
  | tup l => simp [checkArg, V.isNull, V.ty, cmp] at h
  | obj l => simp [checkArg, V.isNull, V.ty, cmp] at h
  | typ t => cases h

theorem check_vars (v : V) : (v.isNull = true ∧ checkArg { ty := .dyn } v = .err) ∨ (v = .unk .dyn ∧ checkArg { ty := .dyn } v = .dyn) ∨
    (v.isNull = false ∧ v ≠ .unk .dyn ∧ checkArg { ty := .dyn } v = .ok) := by
  cases v with
  | unk t => cases t <;> first | exact .inr (.inl ⟨rfl, rfl⟩) | exact .inr (.inr ⟨rfl, by simp, by simp [checkArg, V.isNull, V.ty, cmp]⟩)
  | null t => exact .inl ⟨rfl, rfl⟩
  | str s => exact .inr (.inr ⟨rfl, by simp, rfl⟩)
  | bool x => exact .inr (.inr ⟨rfl, by simp, rfl⟩)
  | num x => exact .inr (.inr ⟨rfl, by simp, rfl⟩)
  | list e l => exact .inr (.inr ⟨rfl, by simp, by simp [checkArg, V.isNull, V.ty, cmp]⟩)
  | set e l => exact .inr (.inr ⟨rfl, by simp, by simp [checkArg, V.isNull, V.ty, cmp]⟩)
  | map e l => exact .inr (.inr ⟨rfl, by simp, by simp [checkArg, V.isNull, V.ty, cmp]⟩)
  | tup l => exact .inr (.inr ⟨rfl, by simp, by simp [checkArg, V.isNull, V.ty, cmp]⟩)
  | obj l => exact .inr (.inr ⟨rfl, by simp, by simp [checkArg, V.isNull, V.ty, cmp]⟩)
  | typ t => exact .inr (.inr ⟨rfl, by simp, rfl⟩)

/-- How a call goes on, by its arguments. -/
inductive TfCase (T : Tmpl) (path vars : MV) : MOut → Prop
  | err : TfCase T path vars .err
  | noPath : path.strip = .unk .dyn → TfCase T path vars (.ok (.leaf [] (.unk .dyn)))
  | noVars : (path.strip = .unk .str ∨ ∃ s, path.strip = .str s) → vars.strip = .unk .dyn → TfCase T path vars (.ok (.leaf [] (.unk .dyn)))
  | unknown : (path.strip = .unk .str ∨ ∃ s, path.strip = .str s) → vars.strip.isNull = false → vars.strip ≠ .unk .dyn →
      path.strip.known = false ∨ vars.strip.known = false → TfCase T path vars (.ok (.leaf vars.deep (.unk .dyn)))
  | known (s : Bytes) (r : MV) : path.strip = .str s → path.marks = [] → vars.strip.isNull = false → Renders T s vars.strip r →
      TfCase T path vars (.ok (r.withMarks vars.deep))

theorem tfCall_known (T : Tmpl) {path vars : MV} {s : Bytes} (hp : path.strip = .str s) (hn : vars.strip.isNull = false) (hk : vars.strip.known = true) :
    tfCall T [path, vars] = match (if path.marks = [] then T.load s else none).bind fun x => tfRender T x (.leaf [] vars.strip) with
      | none => .err
      | some r => .ok (r.withMarks vars.deep) := by
  have hv : checkArg { ty := .dyn } vars.strip = .ok := by
    rcases check_vars vars.strip with ⟨h, _⟩ | ⟨h, _⟩ | ⟨_, _, h⟩
    · rw [hn] at h; cases h
    · rw [h] at hk; cases hk
    · exact h
  have hc : checkArgs tfParams none [path.strip, vars.strip] = .ok := by
    rw [hp]; simp only [tfParams, checkArgs]
    rw [show checkArg { ty := .str } (.str s) = .ok from rfl]; simp only [hv]
  have hb : blocked tfParams none [path.strip, vars.strip] = false := by
    rw [hp]; simp only [tfParams, blocked, hk]; rfl
  unfold tfCall
  dsimp only
  rw [hc]
  dsimp only
  unfold tfType tfImpl
  rw [tfLoad_eq T hp, hb]
  have hkk : (path.strip.known && (MV.leaf [] vars.strip).strip.known) = true := by rw [hp]; simp only [MV.strip, hk]; rfl
  rw [hkk]
  simp only [Bool.not_true, Bool.false_eq_true, if_false]
  by_cases hm : path.marks = []
  · simp only [hm, if_true]
    cases T.load s with
    | none => rfl
    | some x =>
      simp only [Option.bind_some]
      cases tfRender T x (.leaf [] vars.strip) with
      | none => rfl
      | some r => simp [MV.ty, strip_withMarks, withMarks_nil, cmp_self]
  · simp only [hm, if_false]; rfl

theorem tfCall_case (T : Tmpl) (path vars : MV) : TfCase T path vars (tfCall T [path, vars]) := by
  cases hp : checkArg { ty := .str } path.strip with
  | err => unfold tfCall; simp only [tfParams, checkArgs, hp]; exact .err
  | dyn => unfold tfCall; simp only [tfParams, checkArgs, hp]; exact .noPath (check_path_dyn hp)
  | ok =>
    have hps := check_path hp
    rcases check_vars vars.strip with ⟨_, hv⟩ | ⟨h, hv⟩ | ⟨hn, hd, hv⟩
    · unfold tfCall; simp only [tfParams, checkArgs, hp, hv]; exact .err
    · unfold tfCall; simp only [tfParams, checkArgs, hp, hv]; exact .noVars hps h
    · by_cases hk : path.strip.known = true ∧ vars.strip.known = true
      · rcases hps with h | ⟨s, hs⟩
        · rw [h] at hk; cases hk.1
        · rw [tfCall_known T hs hn hk.2]
          split
          · exact .err
          · next r hr =>
            by_cases hm : path.marks = []
            · simp only [hm, if_true] at hr
              obtain ⟨x, hx, hr⟩ := Option.bind_eq_some_iff.1 hr
              obtain ⟨m, h1, h2⟩ := tfRender_iff.1 hr
              exact .known s r hs hm hn ⟨x, m, hx, h1, h2⟩
            · simp [hm] at hr
      · have hu : path.strip.known = false ∨ vars.strip.known = false := by
          cases h1 : path.strip.known
          · exact .inl rfl
          · cases h2 : vars.strip.known
            · exact .inr rfl
            · exact absurd ⟨h1, h2⟩ hk
        have hb : blocked tfParams none [path.strip, vars.strip] = true := by
          rcases hu with h | h <;> simp [tfParams, blocked, h]
        have ht : tfType T path (.leaf [] vars.strip) = some .dyn := by
          unfold tfType
          rw [if_pos]
          rcases hu with h | h <;> simp [h, MV.strip]
        unfold tfCall
        have hc : checkArgs tfParams none [path.strip, vars.strip] = .ok := by simp only [tfParams, checkArgs, hp, hv]
        dsimp only
        rw [hc]
        dsimp only
        rw [ht]
        dsimp only
        rw [if_pos hb]
        exact .unknown hps hn hd hu

end Verif.Typed
