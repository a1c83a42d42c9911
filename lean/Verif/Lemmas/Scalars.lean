import Verif.Spec.Scalars
import Verif.Lemmas.TypedMarks
/-! # Lemmas about null, unknown and marked arguments -/
namespace Verif.Typed
open Funcs (Mark)

/-- The parameter for the argument at a position. -/
def paramAt (ps : List Param) (var : Option Param) (i : Nat) : Option Param :=
  match ps[i]? with
  | some p => some p
  | none => var

theorem paramAt_succ (p : Param) (ps : List Param) (var : Option Param) (i : Nat) : paramAt (p :: ps) var (i + 1) = paramAt ps var i := by
  simp [paramAt]

theorem paramAt_nil (var : Option Param) (i : Nat) : paramAt [] var i = var := rfl

theorem checkArgs_ok {ps : List Param} {var : Option Param} {args : List V} :
    checkArgs ps var args = .ok ↔ ∀ (i : Nat) v p, args[i]? = some v → paramAt ps var i = some p → checkArg p v = .ok := by
  induction args generalizing ps with
  | nil => cases ps <;> simp [checkArgs]
  | cons v args ih =>
    have step : ∀ (p : Param) (qs : List Param), paramAt ps var 0 = some p → (∀ i, paramAt ps var (i + 1) = paramAt qs var i) →
        ((match checkArg p v with | .ok => checkArgs qs var args | c => c) = .ok ↔
          ∀ (i : Nat) w p, (v :: args)[i]? = some w → paramAt ps var i = some p → checkArg p w = .ok) := by
      intro p qs h0 hs
      constructor
      · intro h i w q hw hq
        split at h
        · next hc =>
          cases i with
          | zero => cases hw; rw [h0] at hq; cases hq; exact hc
          | succ i => rw [hs] at hq; exact ih.1 h i w q hw hq
        · next hc => exact absurd h hc
      · intro h
        have hc := h 0 v p rfl h0
        rw [hc]
        exact ih.2 fun i w q hw hq => h (i + 1) w q hw (by rw [hs]; exact hq)
    cases ps with
    | cons p ps => exact step p ps rfl fun i => paramAt_succ p ps var i
    | nil =>
      cases var with
      | some p => exact step p [] rfl fun i => rfl
      | none => simp [checkArgs, paramAt_nil]

theorem scalars_dyn {ps : List Param} {var : Option Param} {args : List V} (h : checkArgs ps var args = .dyn) :
    ∃ (i : Nat) (v : V) (p : Param), args[i]? = some v ∧ paramAt ps var i = some p ∧ checkArg p v = .dyn := by
  induction args generalizing ps with
  | nil => cases ps <;> simp [checkArgs] at h
  | cons v args ih =>
    cases ps with
    | cons p ps =>
      simp only [checkArgs] at h
      split at h
      · obtain ⟨i, w, q, h1, h2, h3⟩ := ih h
        exact ⟨i + 1, w, q, h1, by rw [paramAt_succ]; exact h2, h3⟩
      · exact ⟨0, v, p, rfl, rfl, h⟩
    | nil =>
      cases var with
      | some p =>
        simp only [checkArgs] at h
        split at h
        · obtain ⟨i, w, q, h1, h2, h3⟩ := ih h
          exact ⟨i + 1, w, q, h1, h2, h3⟩
        · exact ⟨0, v, p, rfl, rfl, h⟩
      | none => simp [checkArgs] at h

theorem blocked_iff {ps : List Param} {var : Option Param} {args : List V} :
    blocked ps var args = true ↔
      ∃ (i : Nat) (v : V) (p : Param), args[i]? = some v ∧ paramAt ps var i = some p ∧ v.known = false ∧ p.allowUnk = false := by
  induction args generalizing ps with
  | nil => cases ps <;> simp [blocked]
  | cons v args ih =>
    have step : ∀ (p : Param) (qs : List Param), paramAt ps var 0 = some p → (∀ i, paramAt ps var (i + 1) = paramAt qs var i) →
        (((!v.known && !p.allowUnk) || blocked qs var args) = true ↔
          ∃ (i : Nat) (w : V) (p : Param), (v :: args)[i]? = some w ∧ paramAt ps var i = some p ∧ w.known = false ∧ p.allowUnk = false) := by
      intro p qs h0 hs
      simp only [Bool.or_eq_true, Bool.and_eq_true, Bool.not_eq_true', ih]
      constructor
      · rintro (⟨h, h'⟩ | ⟨i, w, q, h1, h2, h3⟩)
        · exact ⟨0, v, p, rfl, h0, h, h'⟩
        · exact ⟨i + 1, w, q, h1, by rw [hs]; exact h2, h3⟩
      · rintro ⟨i, w, q, h1, h2, h3⟩
        cases i with
        | zero => cases h1; rw [h0] at h2; cases h2; exact .inl h3
        | succ i => rw [hs] at h2; exact .inr ⟨i, w, q, h1, h2, h3⟩
    cases ps with
    | cons p ps => exact step p ps rfl fun i => paramAt_succ p ps var i
    | nil =>
      cases var with
      | some p => exact step p [] rfl fun i => rfl
      | none => simp [blocked, paramAt_nil]

/-! ## The table -/

/-- What the parameters of the functions have in common. -/
theorem param_at (run : Run) (f : SFn) (i : Nat) :
    (paramAt (f.spec run).params (f.spec run).var i = none ∧ f.takesAt i = none) ∨
    ∃ p t, paramAt (f.spec run).params (f.spec run).var i = some p ∧ f.takesAt i = some t ∧ p.allowNull = false ∧ p.allowDyn = false ∧
      (t = .str ∨ t = .num) ∧ (p.ty = t ∨ (f = .parseint ∧ i = 0 ∧ p.ty = .dyn ∧ t = .str)) ∧ (p.allowUnk = true ↔ f = .startswith ∧ i = 0) := by
  match i with
  | 0 => cases f <;> first
      | exact .inl ⟨rfl, rfl⟩
      | exact .inr ⟨_, _, rfl, rfl, rfl, rfl, .inl rfl, .inl rfl, by simp [only]⟩
      | exact .inr ⟨_, _, rfl, rfl, rfl, rfl, .inr rfl, .inl rfl, by simp [only]⟩
      | exact .inr ⟨_, _, rfl, rfl, rfl, rfl, .inl rfl, .inr ⟨rfl, rfl, rfl, rfl⟩, by simp [only]⟩
  | 1 => cases f <;> first
      | exact .inl ⟨rfl, rfl⟩
      | exact .inr ⟨_, _, rfl, rfl, rfl, rfl, .inl rfl, .inl rfl, by simp [only]⟩
      | exact .inr ⟨_, _, rfl, rfl, rfl, rfl, .inr rfl, .inl rfl, by simp [only]⟩
  | 2 => cases f <;> first
      | exact .inl ⟨rfl, rfl⟩
      | exact .inr ⟨_, _, rfl, rfl, rfl, rfl, .inl rfl, .inl rfl, by simp [only]⟩
      | exact .inr ⟨_, _, rfl, rfl, rfl, rfl, .inr rfl, .inl rfl, by simp [only]⟩
  | i + 3 => cases f <;> first
      | exact .inl ⟨rfl, rfl⟩
      | exact .inr ⟨_, _, rfl, rfl, rfl, rfl, .inr rfl, .inl rfl, by simp [only]⟩

theorem spec_arity (run : Run) (f : SFn) : (f.spec run).params.length = f.takes.1.length ∧ ((f.spec run).var = none ↔ f.takes.2 = none) := by
  cases f <;> exact ⟨rfl, by simp [SFn.spec, static, plain, SFn.takes]⟩

theorem spec_own (run : Run) (f : SFn) : (f.spec run).marked = f.own := by cases f <;> rfl

theorem spec_type (run : Run) (f : SFn) (args : List MV) :
    (f.spec run).type args = some f.result ∨ (f = .parseint ∧ (f.spec run).type args = none ∧ ¬ ∃ v, args[0]? = some v ∧ v.ty = .str) := by
  cases f <;> first
    | exact .inl rfl
    | (cases args with
       | nil => exact .inr ⟨rfl, rfl, by simp⟩
       | cons v l =>
         cases hv : v.ty <;> first
           | (exact .inl (by simp only [SFn.spec, mparseintType, hv]; rfl))
           | (exact .inr ⟨rfl, by simp only [SFn.spec, mparseintType, hv], by simp [hv]⟩))

theorem cmp_scalar {t g : Ty} (ht : t = .str ∨ t = .num) : cmp true t g = true ↔ g = t := by
  rcases ht with rfl | rfl <;> cases g <;> simp [cmp]

theorem checkArg_ok {p : Param} (hn : p.allowNull = false) (hd : p.allowDyn = false) (v : V) :
    checkArg p v = .ok ↔ v.isNull = false ∧ v.ty ≠ .dyn ∧ cmp true p.ty v.ty = true := by
  unfold checkArg
  rw [hn, hd]
  cases hv : v.isNull with
  | true => simp
  | false =>
    simp only [Bool.false_and, Bool.false_eq_true, if_false, true_and]
    cases ht : v.ty <;> simp

theorem isNull_dyn {v : V} (hn : v.isNull = false) (ht : v.ty = .dyn) : v = .unk .dyn := by
  cases v <;> simp_all [V.isNull, V.ty]

theorem scalar_dyn {p : Param} (hn : p.allowNull = false) {v : V} (h : checkArg p v = .dyn) : v = .unk .dyn := by
  unfold checkArg at h
  split at h
  · cases h
  · next hc =>
    rw [hn] at hc
    split at h
    · next ht => exact isNull_dyn (by simpa using hc) ht
    · split at h <;> cases h

theorem marity_iff (f : MSpec) (n : Nat) : marity f n = true ↔ f.params.length ≤ n ∧ (f.var = none → n ≤ f.params.length) := by
  unfold marity
  cases f.var with
  | none => simp; omega
  | some p => simp

/-- The arguments, without marks when the function does not deal with them, have the same types. -/
theorem seen_strip (f : MSpec) (args : List MV) : strips (seen f args) = strips args := by
  unfold seen
  split
  · rfl
  · exact strips_leaf _

theorem strips_at {args : List MV} {i : Nat} {v : V} : (strips args)[i]? = some v ↔ ∃ w, args[i]? = some w ∧ w.strip = v := by
  simp only [strips, List.getElem?_map, Option.map_eq_some_iff]

theorem seen_head (f : MSpec) (args : List MV) (t : Ty) :
    (∃ v, (seen f args)[0]? = some v ∧ v.ty = t) ↔ ∃ v, args[0]? = some v ∧ v.ty = t := by
  have h : ∀ l : List MV, (∃ v, l[0]? = some v ∧ v.ty = t) ↔ ∃ v, (strips l)[0]? = some v ∧ v.ty = t := by
    intro l
    constructor
    · rintro ⟨v, hv, ht⟩; exact ⟨v.strip, strips_at.2 ⟨v, hv, rfl⟩, ht⟩
    · rintro ⟨v, hv, ht⟩
      obtain ⟨w, hw, rfl⟩ := strips_at.1 hv
      exact ⟨w, hw, ht⟩
  rw [h, h, seen_strip]

theorem suits_iff (run : Run) (f : SFn) (args : List MV) :
    mreturnType (f.spec run) args = some (f.result, false) ↔ Suits f args := by
  obtain ⟨hl, hv⟩ := spec_arity run f
  constructor
  · intro h
    rcases mreturnType_cases h with ⟨hd, _⟩ | ⟨_, hc, ht⟩
    · cases hd
    have ha : marity (f.spec run) args.length = true := by
      unfold mreturnType at h
      split at h
      · assumption
      · cases h
    obtain ⟨h1, h2⟩ := (marity_iff _ _).1 ha
    rw [checkArgs_ok] at hc
    have each : ∀ (i : Nat) (v : MV), args[i]? = some v → f.takesAt i = some v.ty ∧ v.strip.isNull = false := by
      intro i v hi
      rcases param_at run f i with ⟨hp, hta⟩ | ⟨p, t, hp, hta, hn, hd, hst, hty, _⟩
      · -- more arguments than parameters
        exfalso
        have hlt : i < args.length := by
          obtain ⟨h, _⟩ := List.getElem?_eq_some_iff.1 hi; exact h
        unfold paramAt at hp
        split at hp
        · cases hp
        · next hno =>
          have := h2 hp
          have hge := List.getElem?_eq_none_iff.1 hno
          omega
      · have hcv := hc i v.strip p (strips_at.2 ⟨v, hi, rfl⟩) hp
        obtain ⟨hnull, hdyn, hcmp⟩ := (checkArg_ok hn hd _).1 hcv
        refine ⟨?_, hnull⟩
        rcases hty with hty | ⟨rfl, rfl, hpt, rfl⟩
        · rw [hty] at hcmp
          rw [hta, (cmp_scalar hst).1 hcmp |> fun h => show v.ty = t from h]
        · rcases spec_type run .parseint (seen (SFn.spec run .parseint) args) with h | ⟨_, hno, _⟩
          · by_cases hs : ∃ v, (seen (SFn.spec run .parseint) args)[0]? = some v ∧ v.ty = .str
            · obtain ⟨w, hw, hwt⟩ := (seen_head _ _ _).1 hs
              rw [hi] at hw; cases hw
              rw [hta, hwt]
            · exfalso
              have hseen : seen (SFn.spec run .parseint) args = args := rfl
              rw [hseen] at hs h
              cases args with
              | nil => cases hi
              | cons a l =>
                cases hi
                simp only [SFn.spec, mparseintType] at h
                split at h
                · next hh => exact hs ⟨v, rfl, hh⟩
                · cases h
          · rw [hno] at ht; cases ht
    exact ⟨hl ▸ h1, fun i v hi => (each i v hi).1, fun v hv => by
      obtain ⟨i, hi⟩ := List.mem_iff_getElem?.1 hv; exact (each i v hi).2⟩
  · intro h
    have ha : marity (f.spec run) args.length = true := by
      rw [marity_iff, hl]
      refine ⟨h.enough, fun hno => ?_⟩
      have hno := hv.1 hno
      apply Nat.le_of_not_lt
      intro hlt
      obtain ⟨v, hi⟩ : ∃ v, args[f.takes.1.length]? = some v := ⟨_, List.getElem?_eq_getElem hlt⟩
      have := h.typed _ v hi
      simp [SFn.takesAt, hno] at this
    have hc : checkArgs (f.spec run).params (f.spec run).var (strips args) = .ok := by
      rw [checkArgs_ok]
      intro i v p hi hp
      obtain ⟨w, hw, rfl⟩ := strips_at.1 hi
      rcases param_at run f i with ⟨hp', _⟩ | ⟨p', t, hp', hta, hn, hd, hst, hty, _⟩
      · rw [hp'] at hp; cases hp
      · rw [hp'] at hp; cases hp
        have hwt := h.typed i w hw
        rw [hta] at hwt
        have hwt : t = w.strip.ty := by injection hwt
        refine (checkArg_ok hn hd _).2 ⟨h.given w (List.mem_of_getElem? hw), ?_, ?_⟩
        · rw [← hwt]; rcases hst with rfl | rfl <;> simp
        · rcases hty with hty | ⟨_, _, hty, _⟩
          · rw [hty, ← hwt]; exact (cmp_scalar hst).2 rfl
          · rw [hty, ← hwt]; rcases hst with rfl | rfl <;> rfl
    unfold mreturnType
    rw [if_pos ha, hc]
    dsimp only
    rcases spec_type run f (seen (f.spec run) args) with ht | ⟨rfl, _, hno⟩
    · rw [ht]; rfl
    · exfalso
      apply hno
      rw [seen_head]
      have hen := h.enough
      cases args with
      | nil => simp [SFn.takes] at hen
      | cons a l =>
        refine ⟨a, rfl, ?_⟩
        have := h.typed 0 a rfl
        simp only [SFn.takesAt, SFn.takes, List.getElem?_cons_zero] at this
        exact (Option.some.inj this).symm

/-- The other ways. -/
theorem not_suits (run : Run) (f : SFn) (args : List MV) :
    mreturnType (f.spec run) args = none ∨ (mreturnType (f.spec run) args = some (.dyn, true) ∧ ∃ v ∈ args, v.strip = .unk .dyn) ∨ Suits f args := by
  cases h : mreturnType (f.spec run) args with
  | none => exact .inl rfl
  | some q =>
    obtain ⟨T, d⟩ := q
    rcases mreturnType_cases h with ⟨rfl, hc, rfl⟩ | ⟨rfl, hc, ht⟩
    · refine .inr (.inl ⟨rfl, ?_⟩)
      obtain ⟨i, v, p, hi, hp, hd⟩ := scalars_dyn hc
      obtain ⟨w, hw, rfl⟩ := strips_at.1 hi
      rcases param_at run f i with ⟨hp', _⟩ | ⟨p', t, hp', _, hn, _⟩
      · rw [hp'] at hp; cases hp
      · rw [hp'] at hp; cases hp
        exact ⟨w, List.mem_of_getElem? hw, scalar_dyn hn hd⟩
    · refine .inr (.inr ((suits_iff run f args).1 ?_))
      rcases spec_type run f (seen (f.spec run) args) with h' | ⟨_, h', _⟩
      · rw [h'] at ht; cases ht; exact h
      · rw [h'] at ht; cases ht

/-- An argument that suits is a leaf. -/
theorem suits_leaf {f : SFn} {args : List MV} (h : Suits f args) {v : MV} (hv : v ∈ args) : v = .leaf v.marks v.strip := by
  obtain ⟨i, hi⟩ := List.mem_iff_getElem?.1 hv
  have ht := h.typed i v hi
  rcases param_at (fun _ _ => none) f i with ⟨_, hta⟩ | ⟨p, t, _, hta, _, _, hst, _⟩
  · rw [hta] at ht; cases ht
  · rw [hta] at ht
    have ht : t = v.strip.ty := by injection ht
    cases v with
    | leaf ms v => rfl
    | _ => exfalso; rcases hst with rfl | rfl <;> simp [MV.strip, V.ty] at ht

theorem suits_carries {f : SFn} {args : List MV} (h : Suits f args) {v : MV} (hv : v ∈ args) (a : Mark) : Carries a v ↔ a ∈ v.marks := by
  constructor
  · intro hc
    rw [suits_leaf h hv] at hc
    exact carries_leaf hc
  · exact .here

/-- Whether `Call` gives up because of an unknown argument. -/
theorem blocked_suits (run : Run) {f : SFn} {args : List MV} (h : Suits f args) :
    blocked (f.spec run).params (f.spec run).var (strips args) = true ↔
      ∃ (i : Nat) (v : MV), args[i]? = some v ∧ v.strip.known = false ∧ ¬ (f = .startswith ∧ i = 0) := by
  rw [blocked_iff]
  constructor
  · rintro ⟨i, v, p, hi, hp, hk, hu⟩
    obtain ⟨w, hw, rfl⟩ := strips_at.1 hi
    rcases param_at run f i with ⟨hp', _⟩ | ⟨p', t, hp', _, _, _, _, _, hiff⟩
    · rw [hp'] at hp; cases hp
    · rw [hp'] at hp; cases hp
      exact ⟨i, w, hw, hk, fun hs => by rw [hiff.2 hs] at hu; cases hu⟩
  · rintro ⟨i, w, hw, hk, hs⟩
    rcases param_at run f i with ⟨_, hta⟩ | ⟨p', t, hp', _, _, _, _, _, hiff⟩
    · have := h.typed i w hw
      rw [hta] at this; cases this
    · refine ⟨i, w.strip, p', strips_at.2 ⟨w, hw, rfl⟩, hp', hk, ?_⟩
      cases hpu : p'.allowUnk with
      | false => rfl
      | true => exact absurd (hiff.1 hpu) hs

/-- What the functions that deal with marks on their own do. -/
theorem own_impl (run : Run) {f : SFn} (hf : f.own = true) {args : List MV} (hl : args.length = f.takes.1.length) (t : Ty) :
    (f.spec run).impl args t = (run f (strips args)).map fun r => .leaf (args.flatMap MV.marks) r := by
  have one : ∀ {args : List MV}, args.length = 1 → ∃ v, args = [v] := fun h => List.length_eq_one_iff.1 h
  have two : ∀ {args : List MV}, args.length = 2 → ∃ v w, args = [v, w] := by
    intro args h
    match args, h with
    | [v, w], _ => exact ⟨v, w, rfl⟩
  cases f <;> first
    | (cases hf; done)
    | (obtain ⟨v, rfl⟩ := one hl
       simp only [SFn.spec, mbase64decodeImpl, mfileImpl, mfileexistsImpl, strip_unmark, strips, List.map_cons, List.map_nil, List.flatMap_cons, List.flatMap_nil,
         List.append_nil, MV.withMarks, MV.marks, MV.setMarks, List.nil_append])
    | (obtain ⟨v, w, rfl⟩ := two hl
       simp only [SFn.spec, mfilesetImpl, mparseintImpl, strip_unmark, strips, List.map_cons, List.map_nil, List.flatMap_cons, List.flatMap_nil,
         List.append_nil, MV.withMarks, MV.marks, MV.setMarks, List.nil_append])

theorem other_impl (run : Run) {f : SFn} (hf : f.own = false) (args : List MV) (t : Ty) :
    (f.spec run).impl args t = (run f (strips args)).map (.leaf []) := by
  cases f <;> first | (cases hf; done) | rfl

theorem own_exact {f : SFn} (hf : f.own = true) {args : List MV} (h : Suits f args) : args.length = f.takes.1.length := by
  have hv : f.takes.2 = none := by cases f <;> first | (cases hf; done) | rfl
  apply Nat.le_antisymm ?_ h.enough
  apply Nat.le_of_not_lt
  intro hlt
  have := h.typed _ _ (List.getElem?_eq_getElem hlt)
  simp [SFn.takesAt, hv] at this

/-- What `Call` gives for arguments that suit. -/
theorem call_suits {run : Run} (hr : run.Ok) {f : SFn} {args : List MV} (h : Suits f args) :
    mcall (f.spec run) args =
      if blocked (f.spec run).params (f.spec run).var (strips args) then .ok (.leaf (resultMarks (f.spec run) args) (.unk f.result))
      else match run f (strips args) with
        | none => .err
        | some r => .ok (.leaf (args.flatMap MV.deep) r) := by
  unfold mcall
  rw [(suits_iff run f args).2 h]
  dsimp only
  split
  · rfl
  · have hi : (f.spec run).impl (seen (f.spec run) args) f.result =
        (run f (strips args)).map fun r => .leaf (if f.own then args.flatMap MV.marks else []) r := by
      cases ho : f.own with
      | true =>
        have : seen (f.spec run) args = args := by rw [seen, spec_own, ho]; rfl
        rw [this, own_impl run ho (own_exact ho h)]; rfl
      | false =>
        rw [other_impl run ho, seen_strip]; rfl
    rw [hi]
    cases hrun : run f (strips args) with
    | none => rfl
    | some r =>
      obtain ⟨hty, hnull⟩ := hr f _ r hrun
      have hm : (if f.own then args.flatMap MV.marks else []) ++ resultMarks (f.spec run) args = args.flatMap MV.deep := by
        rw [resultMarks, spec_own]
        cases f.own with
        | true =>
          simp only [if_true, List.append_nil]
          simp only [List.flatMap]
          congr 1
          apply List.map_congr_left
          intro v hv
          rw [suits_leaf h hv]; rfl
        | false => simp
      simp only [Option.map_some, MV.withMarks, MV.marks, MV.setMarks, hm, MV.ty, MV.strip, hty, hnull, Bool.and_false, Bool.false_eq_true, if_false]
      rw [if_pos ((cmp_iff _ _).2 (Fits.refl _))]

end Verif.Typed
