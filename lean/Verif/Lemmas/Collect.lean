import Verif.Spec.Det
import Verif.Lemmas.GoMap
set_option linter.unusedSimpArgs false
/-! Type discovery. -/
namespace Verif.Det

variable {env : Env} {zero : Nat → List (Bytes × Val)} {impls : GoMap Bytes (List (Option Ty))}

theorem Reach.trans {t u v : Ty} (h1 : Reach env impls t u) (h2 : Reach env impls u v) :
    Reach env impls t v := by
  induction h2 with
  | refl => exact h1
  | step _ hs ih => exact .step ih hs

theorem Reach.head {t u v : Ty} (h1 : Step env impls t u) (h2 : Reach env impls u v) :
    Reach env impls t v := (Reach.step .refl h1).trans h2

theorem deref_reach (t : Ty) : Reach env impls t (env.deref t) := by
  unfold Env.deref
  split
  · rename_i e h; exact .step .refl (.ptr h)
  · exact .refl

/-- Induction over a monadic fold. -/
theorem foldlM_inv {α β : Type} {f : β → α → Option β} {P : β → Prop} (l : List α)
    (hstep : ∀ a ∈ l, ∀ b b', P b → f b a = some b' → P b') {b b' : β} (h0 : P b)
    (h : l.foldlM f b = some b') : P b' := by
  induction l generalizing b with
  | nil => simp at h; subst h; exact h0
  | cons a l ih =>
    simp only [List.foldlM_cons, Option.bind_eq_bind, Option.bind_eq_some_iff] at h
    obtain ⟨b1, h1, h2⟩ := h
    exact ih (fun a ha => hstep a (List.mem_cons_of_mem _ ha)) (hstep a (by simp) b b1 h0 h1) h2

/-- What happens in one call. -/
theorem collectN_inv {P : Reg → Prop} {t : Ty} {fuel : Nat} {ref ref' : Reg}
    (h : collectN env zero impls (fuel + 1) t ref = some ref') (h0 : P ref)
    (hreg : ∀ c, env.resolve (env.deref t) = .struct c → (env.struct c).name ≠ [] →
      GoMap.get? ref (env.struct c).name = none → P (register env zero ref c))
    (hstep : ∀ u r r', Step env impls (env.deref t) u → P r →
      collectN env zero impls fuel u r = some r' → P r') : P ref' := by
  rw [collectN] at h
  split at h
  · rename_i i hi
    split at h
    · rename_i l hl
      refine foldlM_inv l ?_ h0 h
      intro ot hot b b' hb hf
      split at hf
      · rename_i u
        exact hstep u b b' (.impl hi hl hot) hb hf
      · simp at hf; subst hf; exact hb
    · simp at h; subst h; exact h0
  · rename_i e he; exact hstep _ _ _ (.map he) h0 h
  · rename_i e he; exact hstep _ _ _ (.slice he) h0 h
  · rename_i c hc
    split at h
    · simp at h; subst h; exact h0
    · rename_i hn
      simp only [not_or] at hn
      refine foldlM_inv _ ?_ (hreg c hc hn.1 (by simpa using hn.2)) h
      intro f hf b b' hb hfb
      exact hstep _ _ _ (.field hc hf) hb hfb
  · simp at h; subst h; exact h0

theorem dot_eq : (b "." : Bytes) = [46] := rfl

theorem register_get (ref : Reg) (c : Nat) (n : Bytes) (hn : (env.struct c).name ≠ []) :
    GoMap.get? (register env zero ref c) n = some (.ptr c (zero c)) ∧ IsNameOf env n c ∨
    GoMap.get? (register env zero ref c) n = GoMap.get? ref n ∧ ¬ IsNameOf env n c := by
  unfold register IsNameOf
  simp only [dot_eq, List.append_assoc, List.cons_append, List.nil_append]
  split
  · rename_i hp
    rw [GoMap.get?_set]
    by_cases h : (env.struct c).name = n
    · left; simp [h]; rw [h] at hn; exact hn
    · right; simp [h, hp, Ne.symm h]
  · rename_i hp
    rw [GoMap.get?_set, GoMap.get?_set]
    by_cases h2 : (env.struct c).pkg ++ 46 :: (env.struct c).name = n
    · left; simp [h2, hn, hp]
    · by_cases h : (env.struct c).name = n
      · left; simp [h, h2, hn, hp]; rw [h] at hn; exact hn
      · right
        simp only [h2, h, if_false, true_and, not_and, not_or]
        exact fun _ => ⟨fun e => h e.symm, fun _ e => h2 e.symm⟩

/-- Every entry that discovery adds is a fresh template of a reachable struct under one of its
names. -/
theorem collectN_sound {fuel : Nat} {t : Ty} {ref ref' : Reg}
    (h : collectN env zero impls fuel t ref = some ref') (n : Bytes) (tm : Tmpl)
    (hg : GoMap.get? ref' n = some tm) :
    GoMap.get? ref n = some tm ∨ ∃ c u, Reach env impls t u ∧ env.resolve u = .struct c ∧
      IsNameOf env n c ∧ tm = .ptr c (zero c) := by
  induction fuel generalizing t ref ref' with
  | zero => simp [collectN] at h
  | succ fuel ih =>
    revert hg
    refine collectN_inv (P := fun r => GoMap.get? r n = some tm → _) h Or.inl ?_ ?_
    · intro c hc hn _ hg
      rcases register_get (zero := zero) ref c n hn with ⟨h1, h2⟩ | ⟨h1, _⟩
      · rw [h1] at hg
        simp only [Option.some.injEq] at hg
        exact Or.inr ⟨c, _, deref_reach t, hc, h2, hg.symm⟩
      · rw [h1] at hg; exact Or.inl hg
    · intro u r r' hs hr hc hg
      rcases ih hc hg with h1 | ⟨c, w, h1, h2⟩
      · exact hr h1
      · exact Or.inr ⟨c, w, ((deref_reach t).trans (.head hs h1)), h2⟩

/-- Names are never removed. -/
theorem collectN_mono {fuel : Nat} {t : Ty} {ref ref' : Reg}
    (h : collectN env zero impls fuel t ref = some ref') (n : Bytes)
    (hg : (GoMap.get? ref n).isSome) : (GoMap.get? ref' n).isSome := by
  induction fuel generalizing t ref ref' with
  | zero => simp [collectN] at h
  | succ fuel ih =>
    refine collectN_inv (P := fun r => (GoMap.get? r n).isSome) h hg ?_ ?_
    · intro c hc hn _
      rcases register_get (zero := zero) ref c n hn with ⟨h1, _⟩ | ⟨h1, _⟩
      · rw [h1]; rfl
      · rw [h1]; exact hg
    · intro u r r' hs hr hc; exact ih hc hr

theorem foldlM_mono {α : Type} {f : Reg → α → Option Reg} (l : List α)
    (hf : ∀ a ∈ l, ∀ b b', f b a = some b' → ∀ n, (GoMap.get? b n).isSome → (GoMap.get? b' n).isSome)
    {b b' : Reg} (h : l.foldlM f b = some b') (n : Bytes) (hg : (GoMap.get? b n).isSome) :
    (GoMap.get? b' n).isSome :=
  foldlM_inv (P := fun r => (GoMap.get? r n).isSome) l (fun a ha b b' hb hfb => hf a ha b b' hfb n hb) hg h

/-! ## Completeness -/

/-- Reachability without passing through the fields of a struct. -/
inductive ReachNS (env : Env) (impls : GoMap Bytes (List (Option Ty))) : Ty → Ty → Prop where
  | refl {t} : ReachNS env impls t t
  | head {t u v} : Step env impls t u → (∀ c, env.resolve t ≠ .struct c) → ReachNS env impls u v →
      ReachNS env impls t v

/-- All structs that `t` leads to are registered. -/
def Cov (env : Env) (impls : GoMap Bytes (List (Option Ty))) (ref : Reg) (t : Ty) : Prop :=
  ∀ u c, ReachNS env impls t u → env.resolve u = .struct c → (GoMap.get? ref (env.struct c).name).isSome

theorem Cov.mono {ref ref' : Reg} {t : Ty} (h : Cov env impls ref t)
    (hm : ∀ n, (GoMap.get? ref n).isSome → (GoMap.get? ref' n).isSome) : Cov env impls ref' t :=
  fun u c hu hc => hm _ (h u c hu hc)

/-- The structs reachable from the root that are new in `ref'` have covered fields. -/
def NewCov (env : Env) (impls : GoMap Bytes (List (Option Ty))) (root : Ty) (ref ref' : Reg) : Prop :=
  ∀ u c, Reach env impls root u → env.resolve u = .struct c →
    GoMap.get? ref (env.struct c).name = none → (GoMap.get? ref' (env.struct c).name).isSome →
    ∀ f ∈ (env.struct c).fields, Cov env impls ref' f.ty

theorem cov_of_deref {ref : Reg} {t : Ty} (h : Cov env impls ref (env.deref t)) : Cov env impls ref t := by
  unfold Env.deref at h
  split at h
  · rename_i e he
    intro u c hu hc
    cases hu with
    | refl => rw [he] at hc; cases hc
    | head hs _ hr =>
      have : ∀ x, Step env impls t x → x = e := by
        intro x hx
        cases hx with
        | ptr h => rw [he] at h; cases h; rfl
        | slice h => rw [he] at h; cases h
        | map h => rw [he] at h; cases h
        | field h => rw [he] at h; cases h
        | impl h => rw [he] at h; cases h
      rw [this _ hs] at hr
      exact h u c hr hc
  · exact h

/-- A sequence of calls. -/
theorem foldlM_new {α : Type} {root : Ty} {f : Reg → α → Option Reg} {g : α → Option Ty} (l : List α)
    (hm : ∀ a ∈ l, ∀ b b', f b a = some b' → ∀ n, (GoMap.get? b n).isSome → (GoMap.get? b' n).isSome)
    (hf : ∀ a ∈ l, ∀ b b', f b a = some b' →
      NewCov env impls root b b' ∧ ∀ t, g a = some t → Cov env impls b' t)
    {b b' : Reg} (h : l.foldlM f b = some b') :
    NewCov env impls root b b' ∧ ∀ a ∈ l, ∀ t, g a = some t → Cov env impls b' t := by
  induction l generalizing b with
  | nil =>
    simp at h; subst h
    refine ⟨fun u c _ _ h1 h2 => ?_, by simp⟩
    rw [h1] at h2; simp at h2
  | cons a l ih =>
    simp only [List.foldlM_cons, Option.bind_eq_bind, Option.bind_eq_some_iff] at h
    obtain ⟨b1, h1, h2⟩ := h
    have hm' := fun a ha => hm a (List.mem_cons_of_mem _ ha)
    obtain ⟨i1, i2⟩ := ih hm' (fun a ha => hf a (List.mem_cons_of_mem _ ha)) h2
    obtain ⟨j1, j2⟩ := hf a (by simp) b b1 h1
    have hmono := fun n hg => foldlM_mono l hm' h2 n hg
    refine ⟨fun u c hu hc e1 e2 f hfm => ?_, fun a' ha' t ht => ?_⟩
    · cases hb1 : GoMap.get? b1 (env.struct c).name with
      | none => exact i1 u c hu hc hb1 e2 f hfm
      | some x => exact (j1 u c hu hc e1 (by rw [hb1]; rfl) f hfm).mono hmono
    · simp only [List.mem_cons] at ha'
      rcases ha' with rfl | ha'
      · exact (j2 t ht).mono hmono
      · exact i2 a' ha' t ht

theorem collectN_complete {root : Ty} (hp : Plain env impls root) {fuel : Nat} {t : Ty} {ref ref' : Reg}
    (hr : Reach env impls root t) (h : collectN env zero impls fuel t ref = some ref') :
    NewCov env impls root ref ref' ∧ Cov env impls ref' t := by
  induction fuel generalizing t ref ref' with
  | zero => simp [collectN] at h
  | succ fuel ih =>
    have hd : Reach env impls root (env.deref t) := hr.trans (deref_reach t)
    -- nothing new when the registry is unchanged
    have same : ∀ r, NewCov env impls root r r := fun r u c _ _ h1 h2 => by rw [h1] at h2; simp at h2
    suffices hs : NewCov env impls root ref ref' ∧ Cov env impls ref' (env.deref t) from
      ⟨hs.1, cov_of_deref hs.2⟩
    rw [collectN] at h
    split at h
    · rename_i i hi
      have hns : ∀ c, env.resolve (env.deref t) ≠ .struct c := by intro c hc; rw [hi] at hc; cases hc
      split at h
      · rename_i l hl
        have := foldlM_new (env := env) (impls := impls) (root := root) (g := fun ot => ot) l ?_ ?_ h
        · refine ⟨this.1, fun u c hu hc => ?_⟩
          cases hu with
          | refl => exact absurd hc (hns c)
          | head hs _ hu =>
            cases hs with
            | impl h1 h2 h3 =>
              rw [hi] at h1; cases h1
              rw [hl] at h2; cases h2
              exact this.2 _ h3 _ rfl u c hu hc
            | ptr h => rw [hi] at h; cases h
            | slice h => rw [hi] at h; cases h
            | map h => rw [hi] at h; cases h
            | field h => rw [hi] at h; cases h
        · intro ot hot b b' hb
          split at hb
          · exact fun n => collectN_mono hb n
          · simp at hb; subst hb; exact fun n hn => hn
        · intro ot hot b b' hb
          split at hb
          · rename_i u
            have := ih (.step hd (.impl hi hl hot)) hb
            exact ⟨this.1, fun t ht => by cases ht; exact this.2⟩
          · simp at hb; subst hb; exact ⟨same _, fun t ht => by cases ht⟩
      · rename_i hl
        simp at h; subst h
        refine ⟨same _, fun u c hu hc => ?_⟩
        cases hu with
        | refl => exact absurd hc (hns c)
        | head hs _ hu =>
          cases hs with
          | impl h1 h2 h3 => rw [hi] at h1; cases h1; rw [hl] at h2; cases h2
          | ptr h => rw [hi] at h; cases h
          | slice h => rw [hi] at h; cases h
          | map h => rw [hi] at h; cases h
          | field h => rw [hi] at h; cases h
    · rename_i k e he
      obtain ⟨h1, h2⟩ := ih (.step hd (.map he)) h
      refine ⟨h1, fun u c hu hc => ?_⟩
      cases hu with
      | refl => rw [he] at hc; cases hc
      | head hs _ hu =>
        cases hs with
        | map h => rw [he] at h; cases h; exact h2 u c hu hc
        | impl h => rw [he] at h; cases h
        | ptr h => rw [he] at h; cases h
        | slice h => rw [he] at h; cases h
        | field h => rw [he] at h; cases h
    · rename_i e he
      obtain ⟨h1, h2⟩ := ih (.step hd (.slice he)) h
      refine ⟨h1, fun u c hu hc => ?_⟩
      cases hu with
      | refl => rw [he] at hc; cases hc
      | head hs _ hu =>
        cases hs with
        | slice h => rw [he] at h; cases h; exact h2 u c hu hc
        | impl h => rw [he] at h; cases h
        | ptr h => rw [he] at h; cases h
        | map h => rw [he] at h; cases h
        | field h => rw [he] at h; cases h
    · rename_i c0 hc0
      have hname := hp.named _ _ hd hc0
      have hcov : ∀ r : Reg, (GoMap.get? r (env.struct c0).name).isSome → Cov env impls r (env.deref t) := by
        intro r hr u c hu hc
        cases hu with
        | refl => rw [hc0] at hc; cases hc; exact hr
        | head hs hn _ => exact absurd hc0 (hn c0)
      split at h
      · rename_i hn
        simp at h; subst h
        rcases hn with hn | hn
        · exact absurd hn hname
        · exact ⟨same _, hcov _ hn⟩
      · have hmono : ∀ a ∈ (env.struct c0).fields, ∀ b b',
            collectN env zero impls fuel a.ty b = some b' →
            ∀ n, (GoMap.get? b n).isSome → (GoMap.get? b' n).isSome :=
          fun a _ b b' hb n => collectN_mono hb n
        have hnew := foldlM_new (env := env) (impls := impls) (root := root) (g := fun f => some f.ty) _ hmono ?_ h
        · have hself : (GoMap.get? (register env zero ref c0) (env.struct c0).name).isSome := by
            rcases register_get (zero := zero) ref c0 (env.struct c0).name hname with ⟨h1, _⟩ | ⟨_, h2⟩
            · rw [h1]; rfl
            · exact absurd ⟨hname, Or.inl rfl⟩ h2
          refine ⟨fun u c hu hc e1 e2 f hf => ?_, hcov _ (foldlM_mono _ hmono h _ hself)⟩
          rcases register_get (zero := zero) ref c0 (env.struct c).name hname with ⟨_, h2⟩ | ⟨h1, _⟩
          · have := hp.unique _ _ _ _ _ hd hc0 hu hc h2 ⟨hp.named _ _ hu hc, Or.inl rfl⟩
            subst this
            exact hnew.2 f hf _ rfl
          · exact hnew.1 u c hu hc (by rw [h1]; exact e1) e2 f hf
        · intro f hf b b' hb
          have := ih (.step hd (.field hc0 hf)) hb
          exact ⟨this.1, fun t ht => by cases ht; exact this.2⟩
    · rename_i h1 h2 h3 h4
      simp at h; subst h
      refine ⟨same _, fun u c hu hc => ?_⟩
      cases hu with
      | refl => exact absurd hc (h4 c)
      | head hs _ hu =>
        cases hs with
        | slice h => exact absurd h (h3 _)
        | impl h => exact absurd h (h1 _)
        | map h => exact absurd h (h2 _ _)
        | field h => exact absurd h (h4 _)
        | ptr h =>
          exfalso
          unfold Env.deref at h
          split at h
          · rename_i e he; exact hp.ptr _ _ _ hr he h
          · rename_i hno; exact hno _ h

/-- The qualified name is registered with the short one. -/
theorem collectN_qual {root : Ty} (hp : Plain env impls root) {fuel : Nat} {t : Ty} {ref ref' : Reg}
    (hr : Reach env impls root t) (h : collectN env zero impls fuel t ref = some ref')
    (h0 : ∀ u c n, Reach env impls root u → env.resolve u = .struct c → IsNameOf env n c →
      (GoMap.get? ref (env.struct c).name).isSome → (GoMap.get? ref n).isSome) :
    ∀ u c n, Reach env impls root u → env.resolve u = .struct c → IsNameOf env n c →
      (GoMap.get? ref' (env.struct c).name).isSome → (GoMap.get? ref' n).isSome := by
  induction fuel generalizing t ref ref' with
  | zero => simp [collectN] at h
  | succ fuel ih =>
    refine collectN_inv (P := fun r => ∀ u c n, Reach env impls root u → env.resolve u = .struct c →
      IsNameOf env n c → (GoMap.get? r (env.struct c).name).isSome → (GoMap.get? r n).isSome) h h0 ?_ ?_
    · intro c0 hc0 hn _ u c n hu hc hnm hs
      have hd := hr.trans (deref_reach t)
      rcases register_get (zero := zero) ref c0 n hn with ⟨h1, _⟩ | ⟨h1, h1'⟩
      · rw [h1]; rfl
      · rcases register_get (zero := zero) ref c0 (env.struct c).name hn with ⟨_, h2⟩ | ⟨h2, _⟩
        · have := hp.unique _ _ _ _ _ hd hc0 hu hc h2 ⟨hp.named _ _ hu hc, Or.inl rfl⟩
          subst this
          exact absurd hnm h1'
        · rw [h1]; rw [h2] at hs; exact h0 u c n hu hc hnm hs
    · intro u r r' hs hr' hc
      exact ih ((hr.trans (deref_reach t)).step hs) hc hr'

theorem collect_complete {root : Ty} (hp : Plain env impls root) {fuel : Nat} {reg : Reg}
    (h : collectN env zero impls fuel root [] = some reg) {u c n} (hu : Reach env impls root u)
    (hc : env.resolve u = .struct c) (hn : IsNameOf env n c) :
    GoMap.get? reg n = some (.ptr c (zero c)) := by
  obtain ⟨h1, h2⟩ := collectN_complete hp .refl h
  have hall : ∀ v, Reach env impls root v → Cov env impls reg v := by
    intro v hv
    induction hv with
    | refl => exact h2
    | step hr hs ih =>
      rename_i x y
      by_cases hx : ∃ c, env.resolve x = .struct c
      · obtain ⟨cx, hx⟩ := hx
        have hreg := ih x cx .refl hx
        cases hs with
        | field h hf => rw [hx] at h; cases h; exact h1 x cx hr hx rfl hreg _ hf
        | slice h => rw [hx] at h; cases h
        | impl h => rw [hx] at h; cases h
        | ptr h => rw [hx] at h; cases h
        | map h => rw [hx] at h; cases h
      · intro w cw hw hcw
        exact ih w cw (.head hs (fun c hc => hx ⟨c, hc⟩) hw) hcw
  have hs := hall u hu u c .refl hc
  have hq := collectN_qual hp .refl h (by intro _ _ _ _ _ _ hh; simp [GoMap.get?] at hh) u c n hu hc hn hs
  cases hg : GoMap.get? reg n with
  | none => rw [hg] at hq; simp at hq
  | some tm =>
    rcases collectN_sound h n tm hg with h3 | ⟨c', u', h3, h4, h5, rfl⟩
    · simp [GoMap.get?] at h3
    · have := hp.unique _ _ _ _ _ hu hc h3 h4 hn h5
      subst this; rfl

/-! ## Termination -/

theorem collectN_fuel {fuel : Nat} {t : Ty} {ref ref' : Reg}
    (h : collectN env zero impls fuel t ref = some ref') :
    collectN env zero impls (fuel + 1) t ref = some ref' := by
  induction fuel generalizing t ref ref' with
  | zero => simp [collectN] at h
  | succ fuel ih =>
    have hl : ∀ {α : Type} (f g : Reg → α → Option Reg) (l : List α)
        (_ : ∀ r a r', f r a = some r' → g r a = some r') (r r' : Reg),
        l.foldlM f r = some r' → l.foldlM g r = some r' := by
      intro α f g l hfg
      induction l with
      | nil => intro r r' h; exact h
      | cons a l ihl =>
        intro r r' h
        simp only [List.foldlM_cons, Option.bind_eq_bind, Option.bind_eq_some_iff] at h ⊢
        obtain ⟨r1, h1, h2⟩ := h
        exact ⟨r1, hfg _ _ _ h1, ihl _ _ h2⟩
    rw [collectN] at h ⊢
    split at h
    · split at h
      · rename_i l hl'
        refine hl _ _ _ ?_ _ _ h
        intro r a r' hra
        split at hra
        · exact ih hra
        · exact hra
      · exact h
    · exact ih h
    · exact ih h
    · split at h
      · rename_i hc; rw [if_pos hc]; exact h
      · rename_i hc; rw [if_neg hc]
        exact hl _ _ _ (fun r a r' hra => ih hra) _ _ h
    · exact h

theorem collectN_fuel_le {fuel fuel' : Nat} (hle : fuel ≤ fuel') {t : Ty} {ref ref' : Reg}
    (h : collectN env zero impls fuel t ref = some ref') :
    collectN env zero impls fuel' t ref = some ref' := by
  induction hle with
  | refl => exact h
  | step _ ih => exact collectN_fuel ih

/-- A sequence of calls terminates if each does, from every registry that can come up. -/
theorem foldlM_fuel {α : Type} {g : α → Option Ty} (R : Reg → Prop) (l : List α)
    (hR : ∀ a ∈ l, ∀ t, g a = some t → ∀ r, R r → ∃ fuel r',
      collectN env zero impls fuel t r = some r' ∧ R r') (r : Reg) (hr : R r) :
    ∃ fuel r', R r' ∧ ∀ fuel' ≥ fuel, l.foldlM (fun r a => match g a with
      | some t => collectN env zero impls fuel' t r
      | none => some r) r = some r' := by
  induction l generalizing r with
  | nil => exact ⟨0, r, hr, fun _ _ => rfl⟩
  | cons a l ih =>
    have ih := ih (fun a ha => hR a (List.mem_cons_of_mem _ ha))
    cases hg : g a with
    | none =>
      obtain ⟨fu, r', h1, h2⟩ := ih r hr
      refine ⟨fu, r', h1, fun fu' hle => ?_⟩
      simp only [List.foldlM_cons, hg, Option.bind_eq_bind, Option.bind_some]
      exact h2 fu' hle
    | some t =>
      obtain ⟨f1, r1, h1, h2⟩ := hR a (by simp) t hg r hr
      obtain ⟨f2, r2, h3, h4⟩ := ih r1 h2
      refine ⟨max f1 f2, r2, h3, fun fu' hle => ?_⟩
      simp only [List.foldlM_cons, hg, Option.bind_eq_bind]
      rw [collectN_fuel_le (by omega : f1 ≤ fu') h1]
      exact h4 fu' (by omega)

/-- The number of names that are not registered yet. -/
def missing (names : List Bytes) (r : Reg) : Nat := (names.filter fun n => (GoMap.get? r n).isNone).length

theorem missing_mono {names : List Bytes} {r r' : Reg}
    (h : ∀ n, (GoMap.get? r n).isSome → (GoMap.get? r' n).isSome) : missing names r' ≤ missing names r := by
  unfold missing
  induction names with
  | nil => simp
  | cons n ns ih =>
    simp only [List.filter_cons]
    have hn := h n
    cases h1 : GoMap.get? r n <;> cases h2 : GoMap.get? r' n <;> simp_all <;> omega

theorem missing_lt {names : List Bytes} {r r' : Reg} {n : Bytes} (hn : n ∈ names)
    (h : ∀ n, (GoMap.get? r n).isSome → (GoMap.get? r' n).isSome)
    (h1 : GoMap.get? r n = none) (h2 : (GoMap.get? r' n).isSome) : missing names r' < missing names r := by
  induction names with
  | nil => simp at hn
  | cons x xs ih =>
    have hm := missing_mono (names := xs) h
    unfold missing at *
    simp only [List.filter_cons]
    by_cases hx : x = n
    · subst hx
      cases h3 : GoMap.get? r' x with
      | none => rw [h3] at h2; simp at h2
      | some y => simp [h1]; omega
    · simp only [List.mem_cons] at hn
      have hlt := ih (hn.resolve_left (fun e => hx e.symm))
      have hxx := h x
      cases h3 : GoMap.get? r x <;> cases h4 : GoMap.get? r' x <;> simp_all <;> omega

theorem collectN_terminates {root : Ty} (names : List Bytes)
    (hfin : ∀ u c, Reach env impls root u → env.resolve u = .struct c → (env.struct c).name ∈ names)
    (hacc : ∀ u, Reach env impls root u → Acc (fun y x => StepNS env impls x y) u)
    (n : Nat) : ∀ t, Reach env impls root t → ∀ ref, missing names ref ≤ n →
      ∃ fuel ref', collectN env zero impls fuel t ref = some ref' := by
  induction n using Nat.strongRecOn with
  | _ n ihn =>
  intro t ht
  have ha := (hacc t ht).transGen
  induction ha with
  | intro t _ iha =>
  intro ref hle
  have hd : Reach env impls root (env.deref t) := ht.trans (deref_reach t)
  -- the types below, if the type is not a struct
  have below : (∀ c, env.resolve (env.deref t) ≠ .struct c) → ∀ u, Step env impls (env.deref t) u →
      ∀ ref, missing names ref ≤ n → ∃ fuel ref', collectN env zero impls fuel u ref = some ref' := by
    intro hns u hs
    have hru := hd.step hs
    refine iha u ?_ hru
    unfold Env.deref at hs hns
    split at hs
    · rename_i e he
      simp only [he] at hns
      exact .trans (.single ⟨hs, hns⟩) (.single ⟨.ptr he, fun c hc => by rw [he] at hc; cases hc⟩)
    · rename_i hno
      refine .single ⟨hs, ?_⟩
      split at hns
      · rename_i e he; exact absurd he (hno e)
      · exact hns
  cases hcase : env.resolve (env.deref t) with
  | leaf i => exact ⟨1, ref, by simp [collectN, hcase]⟩
  | ptr e => exact ⟨1, ref, by simp [collectN, hcase]⟩
  | named i => exact ⟨1, ref, by simp [collectN, hcase]⟩
  | slice e =>
    obtain ⟨fu, r, h⟩ := below (by intro c hc; rw [hcase] at hc; cases hc) e (.slice hcase) ref hle
    exact ⟨fu + 1, r, by simp only [collectN, hcase]; exact h⟩
  | map k e =>
    obtain ⟨fu, r, h⟩ := below (by intro c hc; rw [hcase] at hc; cases hc) e (.map hcase) ref hle
    exact ⟨fu + 1, r, by simp only [collectN, hcase]; exact h⟩
  | iface i =>
    cases hl : GoMap.get? impls (env.iface i).name with
    | none => exact ⟨1, ref, by simp [collectN, hcase, hl]⟩
    | some l =>
      have hns : ∀ c, env.resolve (env.deref t) ≠ .struct c := by intro c hc; rw [hcase] at hc; cases hc
      obtain ⟨fu, r, _, h⟩ := foldlM_fuel (env := env) (zero := zero) (impls := impls)
        (g := fun ot => ot) (fun r => missing names r ≤ n) l (fun a ha u hu r hr => by
          subst hu
          obtain ⟨fu, r', h⟩ := below hns u (.impl hcase hl ha) r hr
          exact ⟨fu, r', h, Nat.le_trans (missing_mono fun n => collectN_mono h n) hr⟩) ref hle
      refine ⟨fu + 1, r, ?_⟩
      simp only [collectN, hcase, hl]
      have := h fu (Nat.le_refl _)
      exact this
  | struct c =>
    by_cases hc : (env.struct c).name = [] ∨ (GoMap.get? ref (env.struct c).name).isSome
    · exact ⟨1, ref, by simp only [collectN, hcase]; rw [if_pos hc]⟩
    · have hc' := hc
      simp only [not_or] at hc'
      have hnone : GoMap.get? ref (env.struct c).name = none := by simpa using hc'.2
      have hself : (GoMap.get? (register env zero ref c) (env.struct c).name).isSome := by
        rcases register_get (zero := zero) ref c (env.struct c).name hc'.1 with ⟨h1, _⟩ | ⟨_, h2⟩
        · rw [h1]; rfl
        · exact absurd ⟨hc'.1, Or.inl rfl⟩ h2
      have hmono : ∀ n, (GoMap.get? ref n).isSome → (GoMap.get? (register env zero ref c) n).isSome := by
        intro n hn
        rcases register_get (zero := zero) ref c n hc'.1 with ⟨h1, _⟩ | ⟨h1, _⟩
        · rw [h1]; rfl
        · rw [h1]; exact hn
      have hlt := missing_lt (hfin _ _ hd hcase) hmono hnone hself
      obtain ⟨fu, r, _, h⟩ := foldlM_fuel (env := env) (zero := zero) (impls := impls)
        (g := fun f : Fld => some f.ty) (fun r => missing names r < n) (env.struct c).fields
        (fun f hf u hu r hr => by
          simp only [Option.some.injEq] at hu; subst hu
          obtain ⟨fu, r', h⟩ := ihn _ hr f.ty (hd.step (.field hcase hf)) r (Nat.le_refl _)
          exact ⟨fu, r', h, Nat.lt_of_le_of_lt (missing_mono fun n => collectN_mono h n) hr⟩)
        (register env zero ref c) (by omega)
      refine ⟨fu + 1, r, ?_⟩
      simp only [collectN, hcase]
      rw [if_neg hc]
      exact h fu (Nat.le_refl _)

theorem acc_of_finite {env : Env} {impls : GoMap Bytes (List (Option Ty))} {root : Ty} (tys : List Ty)
    (hfin : ∀ u, Reach env impls root u → u ∈ tys)
    (hl : ∀ u, Reach env impls root u → ¬ Loop env impls u) (u : Ty) (hu : Reach env impls root u) :
    Acc (fun y x => StepNS env impls x y) u := by
  have key : ∀ n (anc : List Ty) u, Reach env impls root u → anc.Nodup → (∀ a ∈ anc, a ∈ tys) →
      (∀ a ∈ anc, Relation.TransGen (StepNS env impls) a u) → tys.length ≤ anc.length + n →
      Acc (fun y x => StepNS env impls x y) u := by
    intro n
    induction n with
    | zero =>
      intro anc u hu hn hs ha hle
      exfalso
      have hmem : u ∉ anc := fun h => hl u hu (ha u h)
      have h1 : (u :: anc).Nodup := List.nodup_cons.2 ⟨hmem, hn⟩
      have := h1.length_le_of_subset (l₂ := tys) (by
        intro x hx
        simp only [List.mem_cons] at hx
        rcases hx with rfl | hx
        · exact hfin _ hu
        · exact hs _ hx)
      simp at this; omega
    | succ n ih =>
      intro anc u hu hn hs ha hle
      refine ⟨u, fun y hy => ?_⟩
      have hmem : u ∉ anc := fun h => hl u hu (ha u h)
      refine ih (u :: anc) y (hu.step hy.1) (List.nodup_cons.2 ⟨hmem, hn⟩) ?_ ?_ (by simp; omega)
      · intro x hx
        simp only [List.mem_cons] at hx
        rcases hx with rfl | hx
        · exact hfin _ hu
        · exact hs _ hx
      · intro x hx
        simp only [List.mem_cons] at hx
        rcases hx with rfl | hx
        · exact .single hy
        · exact .tail (ha x hx) hy
  exact key tys.length [] u hu (by simp) (by simp) (by simp) (by simp)

end Verif.Det
