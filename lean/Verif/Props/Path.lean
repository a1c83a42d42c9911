import Verif.Lemmas.Path
set_option linter.unusedSimpArgs false
/-!
# Properties of the path functions

C84: the file functions open the place that the path denotes.  C85: they do not leave the base directory.
C86: directory and last element belong together.  C87: `abspath`.

Places are those of `Verif.Spec.Path`; symbolic links are not represented.
-/
namespace Verif.Path

/-! ## C84: the file that is opened -/

/-- A path without `~` is opened, and it denotes the place reached from the base directory; an absolute path does not
depend on the base directory.  `cwd` is the working directory, from which the opened path is read. -/
theorem C84_opens_the_place (home : Option Bytes) (base path : Bytes) (cwd : List Bytes) (ht : ¬ Tilde path) :
    ∃ q, openPath home base path = some q ∧ place cwd q = place (place cwd base) path := by
  refine ⟨clean (if isAbs path then path else join base path), ?_, ?_⟩
  · rw [openPath, expand_plain ht]; rfl
  · rw [place_clean]
    cases hp : isAbs path with
    | true => exact place_abs_any hp _ _
    | false =>
      rw [if_neg (by simp), place_join (Or.inr hp), place_rel hp]

/-- A path `~`, `~/…` denotes the place reached from the home directory, whatever the base directory is. -/
theorem C84_opens_from_home {h : Bytes} (hh : Absolute h) (base rest : Bytes) (hr : rest = [] ∨ Absolute rest)
    (cwd : List Bytes) :
    ∃ q, openPath (some h) base (b "~" ++ rest) = some q ∧ place cwd q = walk (place [] h) rest := by
  have ha := isAbs_iff.2 hh
  have hne : h ≠ [] := by rintro rfl; cases hh
  refine ⟨clean (join h rest), ?_, ?_⟩
  · rw [openPath, show b "~" ++ rest = 126 :: rest from rfl, expand_home (hr.imp id Or.inl), Option.map_some, if_pos (isAbs_join ha)]
  · rw [place_clean, place_join (Or.inl hne), place_abs_any ha]

/-- The only paths that are refused are those that start with `~`: with something else than a separator after it, or
where the home directory is not known. -/
theorem C84_refused {home : Option Bytes} {base path : Bytes} :
    openPath home base path = none ↔ Tilde path ∧ (home = none ∨ ∃ c, path.tail.head? = some c ∧ c ≠ 47 ∧ c ≠ 92) := by
  by_cases ht : Tilde path
  · cases path with
    | nil => cases ht
    | cons c p =>
      have hc : c = 126 := by simpa [Tilde] using ht
      subst hc
      rw [openPath, Option.map_eq_none_iff]
      cases p with
      | nil =>
        change home.map _ = none ↔ _
        simp [ht]
      | cons d p =>
        change (if d ≠ sep ∧ d ≠ 92 then none else home.map _) = none ↔ _
        simp only [ht, true_and, List.tail_cons, List.head?_cons, Option.some.injEq, exists_eq_left']
        by_cases hd : d ≠ sep ∧ d ≠ 92
        · rw [if_pos hd]; simp only [true_iff]; exact Or.inr hd
        · rw [if_neg hd]
          simp only [Option.map_eq_none_iff]
          constructor
          · exact Or.inl
          · rintro (h | h)
            · exact h
            · exact absurd h hd
  · rw [openPath, expand_plain ht]
    simp [ht]

/-- The path that is opened is a canonical name: two paths lead to the same place exactly if the same text is
opened. -/
theorem C84_canonical {home : Option Bytes} {base p p' q q' : Bytes} (hb : Absolute base)
    (h : openPath home base p = some q) (h' : openPath home base p' = some q') : q = q' ↔ place [] q = place [] q' := by
  constructor
  · rintro rfl; rfl
  · intro e
    have ha := isAbs_openPath hb h
    have ha' := isAbs_openPath hb h'
    have hq : clean q = q := by
      simp only [openPath, Option.map_eq_some_iff] at h
      obtain ⟨a, _, e⟩ := h
      rw [← e, clean_clean]
    have hq' : clean q' = q' := by
      simp only [openPath, Option.map_eq_some_iff] at h'
      obtain ⟨a, _, e⟩ := h'
      rw [← e, clean_clean]
    rw [← hq, ← hq']
    apply clean_canonical (by rw [ha, ha'])
    intro d
    rw [place_abs_any ha d [], place_abs_any ha' d [], e]

/-- `file(pathexpand(p))` opens the same path as `file(p)`. -/
theorem C84_pathexpand {nfc : Bytes → Bytes} {home : Option Bytes} {base p q : Bytes} (hh : ∀ h, home = some h → Absolute h)
    (hn : ∀ x, expand home p = some x → nfc x = x)
    (h : pathexpand nfc home p = some q) : openPath home base q = openPath home base p := by
  simp only [pathexpand, Option.map_eq_some_iff] at h
  obtain ⟨x, hx, rfl⟩ := h
  rw [hn x hx]
  rcases expand_home_cases hx with ⟨_, rfl⟩ | ⟨h, rest, e, rfl, rfl⟩
  · rfl
  · have ha := isAbs_join (c := rest) (isAbs_iff.2 (hh h e))
    have ht : ¬ Tilde (join h rest) := by
      intro t
      have h1 := isAbs_iff.1 ha
      rw [Tilde, h1] at t
      cases t
    rw [openPath, openPath, expand_plain ht, hx]

/-- `pathexpand` gives an absolute path to the place that a path with `~` denotes; other paths are left as they are. -/
theorem C84_pathexpand_home {nfc : Bytes → Bytes} {h rest : Bytes} (hh : Absolute h) (hr : rest = [] ∨ Absolute rest)
    (hn : nfc (join h rest) = join h rest) :
    (∃ q, pathexpand nfc (some h) (b "~" ++ rest) = some q ∧ Absolute q ∧ ∀ d, place d q = walk (place [] h) rest) ∧
    ∀ home p, ¬ Tilde p → nfc p = p → pathexpand nfc home p = some p := by
  have ha := isAbs_iff.2 hh
  have hne : h ≠ [] := by rintro rfl; cases hh
  refine ⟨⟨join h rest, ?_, isAbs_iff.1 (isAbs_join ha), ?_⟩, ?_⟩
  · rw [pathexpand, show b "~" ++ rest = 126 :: rest from rfl, expand_home (hr.imp id Or.inl), Option.map_some, hn]
  · intro d
    rw [place_join (Or.inl hne), place_abs_any ha]
  · intro home p ht hp
    rw [pathexpand, expand_plain ht, Option.map_some, hp]

example : pathexpand id (some (b "/home/u")) (b "~/x/..") = some (b "/home/u") ∧ pathexpand id none (b "./x/..") = some (b "./x/..") := by
  decide

/-- `fileset` reads a path without `~` as the file functions do: its pattern starts at the same place. -/
theorem C84_fileset_partial (home : Option Bytes) (base path pattern : Bytes) (cwd : List Bytes) (ht : ¬ Tilde path)
    (hp : base ≠ [] ∨ path ≠ [] ∨ ¬ Absolute pattern) :
    ∃ q, openPath home base path = some q ∧ place cwd (globPath base path pattern) = walk (place cwd q) pattern := by
  obtain ⟨q, hq, hpl⟩ := C84_opens_the_place home base path cwd ht
  refine ⟨q, hq, ?_⟩
  rw [hpl, globPath]
  cases ha : isAbs path with
  | true =>
    rw [if_pos rfl, place_join (Or.inl (by rintro rfl; simp [isAbs] at ha)), place_abs_any ha]
  | false =>
    rw [if_neg (by simp), place_join, place_join (Or.inr ha), place_rel ha]
    by_cases hb : base = []
    · subst hb
      by_cases hp0 : path = []
      · subst hp0
        right
        exact isAbs_false (by simpa using hp)
      · left
        rw [join, if_pos rfl, if_neg hp0]
        intro e
        have := clean_clean path
        rw [e] at this
        cases this
    · left
      rw [join, if_neg hb]
      split <;>
      · intro e
        have h1 := congrArg clean e
        rw [clean_clean, e] at h1
        cases h1

/-- `fileset` does not expand `~`: the files it names for `~/d` are not those that `file("~/d/…")` opens. -/
theorem C84_fileset_violated : ∃ (home base path q : Bytes), Absolute home ∧ Absolute base ∧
    openPath (some home) base path = some q ∧ place [] (globPath base path []) ≠ place [] q :=
  ⟨b "/home/u", b "/work", b "~/d", b "/home/u/d", by decide, by decide, by decide, by decide⟩

example : ¬ Tilde (b "x/../y") ∧ openPath none (b "/work") (b "x/../y") = some (b "/work/y") ∧
    place [] (b "/work/y") = [b "y", b "work"] := by decide
example : openPath none (b ".") (b "../a") = some (b "../a") ∧ place [b "w", b "r"] (b "../a") = [b "a", b "r"] := by decide
example : openPath (some (b "/home/u")) (b "/work") (b "~/x//y/.") = some (b "/home/u/x/y") := by decide
example : openPath (some (b "/home/u")) (b "/work") (b "~bob/x") = none := by decide
example : openPath none (b "/work") (b "a/./b") = openPath none (b "/work") (b "c/../a//b") := by decide

/-! ## C85: staying in the base directory -/

/-- A relative path whose parts never lead above the start stays in the base directory. -/
theorem C85_confined_partial {home : Option Bytes} {base path q : Bytes} (cwd : List Bytes) (ht : ¬ Tilde path)
    (hr : ¬ Absolute path) (hs : staysIn 0 (parts path) = true) (h : openPath home base path = some q) :
    Below (place cwd base) (place cwd q) := by
  obtain ⟨q', hq', hp⟩ := C84_opens_the_place home base path cwd ht
  rw [h] at hq'
  cases hq'
  have ha := isAbs_false hr
  rw [hp, place_rel ha, walk_eq ha, (staysIn_iff ha).1 hs, List.drop_zero]
  exact ⟨_, rfl⟩

/-- Every relative path that leads above its start leaves some base directory. -/
theorem C85_confined_only {home : Option Bytes} {path : Bytes} (ht : ¬ Tilde path) (hr : ¬ Absolute path)
    (hs : staysIn 0 (parts path) = false) :
    ∃ base q, Absolute base ∧ openPath home base path = some q ∧ ¬ Below (place [] base) (place [] q) := by
  obtain ⟨n, hn, hf⟩ := exists_fresh (state path).2
  obtain ⟨q, hq, hp⟩ := C84_opens_the_place home (sep :: n) path [] ht
  refine ⟨sep :: n, q, rfl, hq, ?_⟩
  have ha := isAbs_false hr
  have hpl : place [] (sep :: n) = [n] := by
    rw [place_abs rfl, walk, parts_sep, parts_single hn.sep, List.foldl_cons, List.foldl_cons, List.foldl_nil]
    simp [stepTo, hn.ne, hn.dot, hn.dotdot]
  rw [hp, place_rel ha, walk_eq ha, hpl]
  have hk : (state path).1 ≠ 0 := by
    intro e
    rw [(staysIn_iff ha).2 e] at hs
    cases hs
  rw [List.drop_eq_nil_of_le (by simp; omega), List.append_nil]
  rintro ⟨l, e⟩
  exact hf (by rw [e]; simp)

/-- An absolute path and a path from the home directory leave the base directory as they please; so does `..`. -/
theorem C85_violated : ∃ base, Absolute base ∧ ∀ path ∈ [b "/etc/passwd", b "~/x", b "../x", b "a/../../x"],
    ∃ q, openPath (some (b "/home/u")) base path = some q ∧ ¬ Below (place [] base) (place [] q) := by
  have key : ∀ path q, openPath (some (b "/home/u")) (b "/work") path = some q →
      (place [] q).getLast? ≠ some (b "work") →
      ∃ q, openPath (some (b "/home/u")) (b "/work") path = some q ∧ ¬ Below (place [] (b "/work")) (place [] q) := by
    intro path q h hl
    refine ⟨q, h, ?_⟩
    rintro ⟨l, e⟩
    rw [e, show place [] (b "/work") = [b "work"] from by decide] at hl
    simp at hl
  refine ⟨b "/work", by decide, ?_⟩
  intro path hp
  simp only [List.mem_cons, List.not_mem_nil, or_false] at hp
  rcases hp with rfl | rfl | rfl | rfl
  · exact key _ (b "/etc/passwd") (by decide) (by decide)
  · exact key _ (b "/home/u/x") (by decide) (by decide)
  · exact key _ (b "/x") (by decide) (by decide)
  · exact key _ (b "/x") (by decide) (by decide)

example : staysIn 0 (parts (b "a/../b/./c")) = true ∧ ¬ Tilde (b "a/../b/./c") ∧ ¬ Absolute (b "a/../b/./c") := by decide
example : staysIn 0 (parts (b "a/../../b")) = false := by decide

/-! ## C86: directory and last element -/

/-- `dirname` and `basename` of a path that does not end with a slash, put together again, denote the same place. -/
theorem C86_dir_base_partial {p : Bytes} (hp : p.getLast? ≠ some 47) (d : List Bytes) :
    place d (join (dir p) (base p)) = place d p := by
  by_cases hne : p = []
  · subst hne; exact place_clean d (b ".")
  obtain ⟨pre, w, hpw, hw, hpre, h1, h2⟩ := split_last p
  have hwne : w ≠ [] := by
    rintro rfl
    rcases hpre with rfl | ⟨pre', rfl⟩
    · exact hne hpw
    · rw [hpw] at hp
      simp [sep] at hp
  have hb : base p = w := by
    have hd : p.reverse.dropWhile (· = sep) = p.reverse := by
      rw [hpw, List.reverse_append]
      cases hwr : w.reverse with
      | nil => exact absurd (List.reverse_eq_nil_iff.1 hwr) hwne
      | cons c r =>
        have hc : c ≠ sep := hw c (by rw [← List.mem_reverse, hwr]; simp)
        rw [List.cons_append, List.dropWhile_cons_of_neg (by simp [hc])]
    rw [base, if_neg hne, hd]
    simp only
    rw [← h2, if_neg hwne]
  have hwa : isAbs w = false := by
    cases w with
    | nil => rfl
    | cons c w =>
      have := hw c (by simp)
      simp [isAbs, this]
  rw [hb, dir, ← h1, place_join (Or.inr hwa), place_clean, ← place_split hw hpre, ← hpw]

/-- With a trailing slash the last name is there twice. -/
theorem C86_violated : ∃ p, place [] (join (dir p) (base p)) ≠ place [] p := ⟨b "a/b/", by decide⟩

/-- `basename` is one name: it is not empty, and contains no slash unless it is the root itself. -/
theorem C86_base_is_a_name (p : Bytes) : base p ≠ [] ∧ ((47 : UInt8) ∈ base p → base p = b "/" ∧ ∀ c ∈ p, c = 47) := by
  unfold base
  by_cases hne : p = []
  · rw [if_pos hne]
    exact ⟨by decide, fun h => absurd h (by decide)⟩
  · rw [if_neg hne]
    simp only
    split
    · rename_i h
      refine ⟨by simp, fun _ => ⟨rfl, ?_⟩⟩
      intro c hc
      rw [List.reverse_eq_nil_iff] at h
      have hd : p.reverse.dropWhile (· = sep) = [] := by
        cases hd : p.reverse.dropWhile (· = sep) with
        | nil => rfl
        | cons x r =>
          have hx := List.head?_dropWhile_not (· = sep) p.reverse
          rw [hd] at hx
          rw [hd, List.takeWhile_cons] at h
          simp only [List.head?_cons] at hx
          simp only [decide_not, Bool.not_eq_true', decide_eq_false_iff_not] at h hx
          rw [if_pos hx] at h
          cases h
      have := List.takeWhile_append_dropWhile (p := (· = sep)) (l := p.reverse)
      rw [hd, List.append_nil] at this
      have hm := List.mem_reverse.2 hc
      rw [← this] at hm
      exact of_mem_takeWhile_sep hm
    · rename_i h
      refine ⟨h, fun hm => ?_⟩
      exact absurd rfl (takeWhile_ne _ _ (List.mem_reverse.1 hm))

/-- `dirname` keeps whether a path is absolute, and gives a canonical path. -/
theorem C86_dir (p : Bytes) : (Absolute (dir p) ↔ Absolute p) ∧ clean (dir p) = dir p := by
  refine ⟨?_, clean_clean _⟩
  obtain ⟨pre, w, hpw, hw, hpre, h1, h2⟩ := split_last p
  unfold Absolute
  rw [← isAbs_iff, ← isAbs_iff, dir, ← h1, isAbs_clean]
  rcases hpre with rfl | ⟨pre', rfl⟩
  · have : isAbs p = false := by
      rw [hpw]
      cases w with
      | nil => rfl
      | cons c w =>
        have := hw c (by simp)
        simp [isAbs, this]
    rw [this]; rfl
  · rw [hpw]
    cases pre' <;> exact Iff.rfl

example : (b "/a//b/../c").getLast? ≠ some 47 ∧ dir (b "/a//b/../c") = b "/a" ∧ base (b "/a//b/../c") = b "c" := by decide
example : base (b "a/b/") = b "b" ∧ dir (b "a/b/") = b "a/b" := by decide
example : base (b "//") = b "/" ∧ base [] = b "." ∧ dir (b "x") = b "." := by decide

/-! ## C87: abspath -/

/-- `abspath` gives an absolute path to the place that the path denotes in the working directory, always the same
text for the same place, and is idempotent. -/
theorem C87_abspath {nfc : Bytes → Bytes} {cwd : Bytes} (hc : Absolute cwd) (p : Bytes)
    (hn : ∀ x, nfc (abspath id cwd x) = abspath id cwd x) :
    Absolute (abspath nfc cwd p) ∧ place [] (abspath nfc cwd p) = place (place [] cwd) p ∧
    abspath nfc cwd (abspath nfc cwd p) = abspath nfc cwd p ∧
    ∀ p', abspath nfc cwd p' = abspath nfc cwd p ↔ place (place [] cwd) p' = place (place [] cwd) p := by
  have hid : ∀ x, abspath nfc cwd x = abspath id cwd x := hn
  simp only [hid]
  have habs : ∀ x, isAbs (abspath id cwd x) = true := by
    intro x
    rw [abspath, id]
    split
    · rename_i h; rw [isAbs_clean, h]
    · exact isAbs_join (isAbs_iff.2 hc)
  have hcl : ∀ x, clean (abspath id cwd x) = abspath id cwd x := by
    intro x
    rw [abspath, id]
    split
    · rw [clean_clean]
    · have hne : cwd ≠ [] := by rintro rfl; cases hc
      rw [join, if_neg hne]
      split <;> rw [clean_clean]
  have hpl : ∀ x, place [] (abspath id cwd x) = place (place [] cwd) x := by
    intro x
    rw [abspath, id]
    cases hx : isAbs x with
    | true => rw [if_pos rfl, place_clean, place_abs_any hx]
    | false => rw [if_neg (by simp), place_join (Or.inr hx), place_rel hx]
  refine ⟨isAbs_iff.1 (habs p), hpl p, ?_, ?_⟩
  · conv_lhs => rw [abspath, id, if_pos (habs p), hcl]
  · intro p'
    constructor
    · intro e; rw [← hpl, ← hpl, e]
    · intro e
      rw [← hcl p', ← hcl p]
      apply clean_canonical (by rw [habs, habs])
      intro d
      rw [place_abs_any (habs p') d [], place_abs_any (habs p) d [], hpl, hpl, e]

/-- `file(abspath(p))`, with the base directory `.` under which the functions are registered, opens the same place as
`file(p)`, for paths without `~`. -/
theorem C87_file_partial {nfc : Bytes → Bytes} {home : Option Bytes} {cwd p : Bytes} (hc : Absolute cwd) (ht : ¬ Tilde p)
    (hn : ∀ x, nfc (abspath id cwd x) = abspath id cwd x) :
    ∃ q q', openPath home (b ".") p = some q ∧ openPath home (b ".") (abspath nfc cwd p) = some q' ∧
      place (place [] cwd) q' = place (place [] cwd) q := by
  obtain ⟨h1, h2, _⟩ := C87_abspath hc p hn
  obtain ⟨q, hq, hp⟩ := C84_opens_the_place home (b ".") p (place [] cwd) ht
  obtain ⟨q', hq', hp'⟩ := C84_opens_the_place home (b ".") (abspath nfc cwd p) (place [] cwd) (by
    rw [Tilde, h1]; decide)
  refine ⟨q, q', hq, hq', ?_⟩
  rw [hp, hp', show place (place [] cwd) (b ".") = place [] cwd from by rw [show b "." = [46] from by decide]; rfl]
  rw [place_abs_any (isAbs_iff.2 h1) _ [], h2]

/-- `abspath` does not know `~`: its result is not the file that `file` opens. -/
theorem C87_file_violated : ∃ home cwd p q q', Absolute home ∧ Absolute cwd ∧
    openPath (some home) (b ".") p = some q ∧ openPath (some home) (b ".") (abspath id cwd p) = some q' ∧
    place (place [] cwd) q' ≠ place (place [] cwd) q :=
  ⟨b "/home/u", b "/work", b "~/x", b "/home/u/x", b "/work/~/x", by decide, by decide, by decide, by decide, by decide⟩

/-- The result is normalised as a text.  Where the working directory is not in normal form, it is a path to another
place. -/
theorem C87_normal_form_violated : ∃ (nfc : Bytes → Bytes) (cwd p : Bytes), Absolute cwd ∧ (∀ x, nfc (nfc x) = nfc x) ∧
    nfc p = p ∧ place [] (abspath nfc cwd p) ≠ place (place [] cwd) p := by
  -- the KELVIN SIGN, `E2 84 AA`, is normalised to `K`
  refine ⟨fun x => if x = [47, 0xE2, 0x84, 0xAA, 47, 97] then b "/K/a" else x, [47, 0xE2, 0x84, 0xAA], b "a", by decide, ?_,
    by decide, by decide⟩
  intro x
  simp only
  by_cases h : x = [47, 0xE2, 0x84, 0xAA, 47, 97]
  · subst h; decide
  · rw [if_neg h, if_neg h]

example : Absolute (b "/w/d") ∧ abspath id (b "/w/d") (b "../x/./y/") = b "/w/x/y" ∧
    (∀ x, id (abspath id (b "/w/d") x) = abspath id (b "/w/d") x) := ⟨by decide, by decide, fun _ => rfl⟩
end Verif.Path
