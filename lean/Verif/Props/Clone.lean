import Verif.Lemmas.Clone
/-!
# C97, C98: what a decoded struct shares with its template

C97: a struct that `dethcl` made from a template is independent of the template and of the other structs made from it.
This fails when an exported field of the template holds a pointer, map or slice (`C97_violated`,
`C97_violated_siblings`), and only then (`C97_partial`, `C97_partial_siblings`).  The template itself is never changed by
decoding (`C97_template`).

C98: the structs that `det` makes are independent, whatever the template is.
-/
namespace Verif.Clone

/-- A template `&T{Name: 1, Tags: map{"k": 1}, hidden: 7}`: the struct at address 0, the map at address 1. -/
def demo : Mem :=
  [.fields [(b "Name", true, .scalar 1), (b "Tags", true, .ref 1), (b "hidden", false, .scalar 7)],
   .fields [(b "k", true, .scalar 1)]]

/-- A template without references in exported fields: `&T{Name: 1, Size: Pair{2, 3}, cache: map{"k": 1}}`. -/
def demoPlain : Mem :=
  [.fields [(b "Name", true, .scalar 1), (b "Size", true, .fields [(b "X", true, .scalar 2), (b "y", false, .scalar 3)]),
     (b "cache", false, .ref 1)],
   .fields [(b "k", true, .scalar 1)]]

theorem demo_sound : Sound demo := by
  intro w hw a ha
  simp only [demo, List.mem_cons, List.not_mem_nil, or_false] at hw
  rcases hw with rfl | rfl <;> simp [refs, refsL] at ha
  subst ha; decide

theorem demoPlain_sound : Sound demoPlain := by
  intro w hw a ha
  simp only [demoPlain, List.mem_cons, List.not_mem_nil, or_false] at hw
  rcases hw with rfl | rfl <;> simp [refs, refsL] at ha
  subst ha; decide

/-- Decoding never changes the template nor anything else that existed: cloning adds one cell, and a decoder that only
makes cells and writes to cells made since the cloning leaves all older ones. -/
theorem C97_template {m m' m'' : Mem} {a c : Nat} (h : cloneHcl m a = some (m', c)) (hf : Fills m.length m' m'') :
    m.length ≤ c ∧ ∀ d < m.length, m''[d]? = m[d]? := by
  obtain ⟨fs, _, rfl, rfl⟩ := cloneHcl_eq h
  refine ⟨Nat.le_refl _, fun d hd => ?_⟩
  rw [fills_old hf (by simp) d hd, List.getElem?_append_left hd]

example : ∃ m' c m'', cloneHcl demo 0 = some (m', c) ∧ Fills demo.length m' m'' ∧ m''.length = 4 :=
  ⟨_, _, _, rfl, .new (.fields [(b "z", true, .scalar 5)])
    (.store (a := 2) (.fields [(b "Name", true, .scalar 9), (b "Tags", true, .ref 3)]) (by decide) (.done _)), rfl⟩

/-- The copy has the fields of the template, in order; the exported ones have its values, the others are zero. -/
theorem C97_copy {m m' : Mem} {a c : Nat} (h : cloneHcl m a = some (m', c)) :
    ∃ fs gs, m[a]? = some (.fields fs) ∧ m'[c]? = some (.fields gs) ∧ gs.length = fs.length ∧
      ∀ (i : Nat) n e w, fs[i]? = some (n, e, w) →
        (e = true → gs[i]? = some (n, true, w)) ∧ (e = false → ∃ z, gs[i]? = some (n, false, z) ∧ IsZero z) := by
  obtain ⟨fs, ha, rfl, rfl⟩ := cloneHcl_eq h
  refine ⟨fs, copyFields fs, ha, by simp, ?_, ?_⟩
  · clear h ha
    induction fs with
    | nil => rfl
    | cons f r ih => obtain ⟨n, e, w⟩ := f; simp [copyFields, ih]
  · clear h ha
    induction fs with
    | nil => intro i n e w hi; simp at hi
    | cons f r ih =>
      obtain ⟨n', e', w'⟩ := f
      intro i n e w hi
      cases i with
      | zero =>
        simp only [List.getElem?_cons_zero, Option.some.injEq, Prod.mk.injEq] at hi
        obtain ⟨rfl, rfl, rfl⟩ := hi
        exact ⟨fun he => by simp [copyFields, he], fun he => ⟨zero w', by simp [copyFields, he], isZero_zero w'⟩⟩
      | succ i => simpa [copyFields] using ih i n e w (by simpa using hi)

example : ∃ m' c, cloneHcl demo 0 = some (m', c) ∧ c = 2 := ⟨_, _, rfl, rfl⟩

/-- A write through the copy can change what the template holds. -/
theorem C97_violated : ∃ (m m' : Mem) (a c : Nat), Sound m ∧ cloneHcl m a = some (m', c) ∧ ¬ Independent m' c a := by
  refine ⟨demo, _, 0, 2, demo_sound, rfl, fun h => ?_⟩
  have h1 := h _ _ (.more (.load (a := 2) (b := 1) (by simp) rfl (by simp [refs, refsL, copyFields]))
    (.more (.store (a := 1) (w := .fields [(b "k", true, .scalar 2)]) (by simp) (by simp [refs, refsL])) (.done _)))
    1 (.step (b := 1) (w := demo[0]) rfl (by simp [demo, refs, refsL]) (.here 1))
  simp [demo] at h1

/-- Two elements of a list of blocks can share a map. -/
theorem C97_violated_siblings : ∃ (m m' : Mem) (a c c' : Nat), Sound m ∧ cloneMany cloneHcl a 2 m = some (m', [c, c']) ∧
    c ≠ c' ∧ ¬ Independent m' c c' := by
  refine ⟨demo, _, 0, 2, 3, demo_sound, rfl, by decide, fun h => ?_⟩
  have h1 := h _ _ (.more (.load (a := 2) (b := 1) (by simp) rfl (by simp [refs, refsL, copyFields]))
    (.more (.store (a := 1) (w := .fields [(b "k", true, .scalar 2)]) (by simp) (by simp [refs, refsL])) (.done _)))
    1 (.step (b := 1) (w := .fields (copyFields _)) rfl (by simp [refs, refsL, copyFields]) (.here 1))
  simp [demo] at h1

theorem plain_copy {fs : List (Bytes × Bool × W)} (h : ∀ f ∈ fs, f.2.1 = true → refs f.2.2 = []) :
    refs (.fields (copyFields fs)) = [] := by
  rw [List.eq_nil_iff_forall_not_mem]
  intro a ha
  rw [refs, mem_refs_copy] at ha
  obtain ⟨f, hf, he, ha⟩ := ha
  rw [h f hf he] at ha; cases ha

/-- The copy is independent of the template exactly if no exported field of the template holds a reference; then it is
independent of everything else, in both directions. -/
theorem C97_partial {m m' : Mem} {a c : Nat} (hs : Sound m) (h : cloneHcl m a = some (m', c)) :
    (Independent m' c a ↔ Plain m a) ∧
      (Plain m a → ∀ d < m.length, Independent m' c d ∧ Independent m' d c) := by
  obtain ⟨fs, ha, rfl, rfl⟩ := cloneHcl_eq h
  have hlt : a < m.length := (List.getElem?_eq_some_iff.1 ha).1
  have hall : Plain m a → ∀ d < m.length, Independent (m ++ [.fields (copyFields fs)]) m.length d ∧
      Independent (m ++ [.fields (copyFields fs)]) d m.length := by
    rintro ⟨fs', ha', hp⟩ d hd
    rw [ha] at ha'
    simp only [Option.some.injEq, W.fields.injEq] at ha'
    subst ha'
    exact indep_new hs (by intro w hw; rw [List.mem_singleton.1 hw]; exact plain_copy hp) (Nat.le_refl _) (by simp)
      (by simp; omega) (by omega)
  refine ⟨⟨fun hi => ⟨fs, ha, fun f hf he => ?_⟩, fun hp => (hall hp a hlt).1⟩, hall⟩
  rw [List.eq_nil_iff_forall_not_mem]
  intro r hr
  have hs' : Sound (m ++ [.fields (copyFields fs)]) := sound_snoc hs (by
    intro r' hr'
    rw [refs, mem_refs_copy] at hr'
    obtain ⟨f', hf', _, hr'⟩ := hr'
    exact hs _ (List.mem_of_getElem? ha) r' (by rw [refs, mem_refsL]; exact ⟨f', hf', hr'⟩))
  rw [independent_iff hs' (by simp; omega)] at hi
  refine hi r (.step (b := r) (w := .fields (copyFields fs)) (by simp) ?_ (.here r))
    (.step (b := r) (w := .fields fs) (by rw [List.getElem?_append_left hlt, ha]) ?_ (.here r))
  · rw [refs, mem_refs_copy]; exact ⟨f, hf, he, hr⟩
  · rw [refs, mem_refsL]; exact ⟨f, hf, hr⟩

theorem demoPlain_plain : Plain demoPlain 0 := by
  refine ⟨_, rfl, ?_⟩
  intro f hf he
  simp only [List.mem_cons, List.not_mem_nil, or_false] at hf
  rcases hf with rfl | rfl | rfl
  · rfl
  · rfl
  · simp at he

example : ∃ m' c, cloneHcl demoPlain 0 = some (m', c) ∧ Independent m' c 0 ∧ Independent m' c 1 := by
  refine ⟨_, _, rfl, ?_, ?_⟩
  · exact ((C97_partial demoPlain_sound rfl).2 demoPlain_plain 0 (by decide)).1
  · exact ((C97_partial demoPlain_sound rfl).2 demoPlain_plain 1 (by decide)).1

/-- Several structs of one template without references in exported fields are independent of each other and of
everything else. -/
theorem C97_partial_siblings {m m' : Mem} {a n : Nat} {cs : List Nat} (hs : Sound m) (hp : Plain m a)
    (h : cloneMany cloneHcl a n m = some (m', cs)) :
    cs.length = n ∧ cs.Nodup ∧ ∀ c ∈ cs, ∀ d < m'.length, d ≠ c → Independent m' c d ∧ Independent m' d c := by
  obtain ⟨fs, ha, hp⟩ := hp
  obtain ⟨xs, rfl, hx, hl, hn, hc⟩ := cloneMany_new (w₀ := .fields fs) (by
    intro m m' c hm hcl
    obtain ⟨fs', hm', rfl, rfl⟩ := cloneHcl_eq hcl
    rw [hm] at hm'
    simp only [Option.some.injEq, W.fields.injEq] at hm'
    subst hm'
    exact ⟨rfl, _, plain_copy hp, rfl⟩) n m m' cs ha h
  exact ⟨hl, hn, fun c hcs d hd hne => indep_new hs hx (hc c hcs).1 (hc c hcs).2 hd hne⟩

example : ∃ m' cs, Plain demoPlain 0 ∧ cloneMany cloneHcl 0 3 demoPlain = some (m', cs) ∧ cs = [2, 3, 4] :=
  ⟨_, _, demoPlain_plain, rfl, rfl⟩

/-- `det`: the structs made from any template are independent of each other and of everything else, in both directions. -/
theorem C98_independent {m m' : Mem} {a n : Nat} {cs : List Nat} (hs : Sound m) (h : cloneMany cloneDet a n m = some (m', cs)) :
    cs.length = n ∧ cs.Nodup ∧ (∀ d < m.length, m'[d]? = m[d]?) ∧
      ∀ c ∈ cs, m.length ≤ c ∧ ∀ d < m'.length, d ≠ c → Independent m' c d ∧ Independent m' d c := by
  cases n with
  | zero =>
    simp only [cloneMany, Option.some.injEq, Prod.mk.injEq] at h
    obtain ⟨rfl, rfl⟩ := h
    exact ⟨rfl, List.nodup_nil, fun _ _ => rfl, by simp⟩
  | succ n =>
    obtain ⟨w, ha⟩ : ∃ w, m[a]? = some w := by
      cases ha : m[a]? with
      | none => simp [cloneMany, cloneDet, ha] at h
      | some w => exact ⟨w, rfl⟩
    obtain ⟨xs, rfl, hx, hl, hn, hc⟩ := cloneMany_new (w₀ := w) (by
      intro m m' c hm hcl
      obtain ⟨w', hm', rfl, rfl⟩ := cloneDet_eq hcl
      exact ⟨rfl, _, refs_zero w', rfl⟩) (n + 1) m m' cs ha h
    exact ⟨hl, hn, fun d hd => List.getElem?_append_left hd,
      fun c hcs => ⟨(hc c hcs).1, fun d hd hne => indep_new hs hx (hc c hcs).1 (hc c hcs).2 hd hne⟩⟩

example : ∃ m' cs, Sound demo ∧ cloneMany cloneDet 0 3 demo = some (m', cs) ∧ cs = [2, 3, 4] := ⟨_, _, demo_sound, rfl, rfl⟩

/-- `det`: nothing of the template is in the new struct; it is the same for two templates of one type (that is, with
the same zero value). -/
theorem C98_fresh {m m₁ m₂ : Mem} {a₁ a₂ c₁ c₂ : Nat} {w₁ w₂ : W} (h₁ : m[a₁]? = some w₁) (h₂ : m[a₂]? = some w₂)
    (ht : zero w₁ = zero w₂) (hc₁ : cloneDet m a₁ = some (m₁, c₁)) (hc₂ : cloneDet m a₂ = some (m₂, c₂)) :
    m₁ = m₂ ∧ c₁ = c₂ := by
  obtain ⟨w, hw, rfl, rfl⟩ := cloneDet_eq hc₁
  obtain ⟨w', hw', rfl, rfl⟩ := cloneDet_eq hc₂
  rw [h₁] at hw; rw [h₂] at hw'
  cases hw; cases hw'
  rw [ht]; exact ⟨rfl, rfl⟩

example : cloneDet [.scalar 3, .scalar 4] 0 = some ([.scalar 3, .scalar 4, .scalar 0], 2) ∧
    cloneDet [.scalar 3, .scalar 4] 1 = some ([.scalar 3, .scalar 4, .scalar 0], 2) := ⟨rfl, rfl⟩

end Verif.Clone
