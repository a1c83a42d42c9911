import Mathlib.Data.List.Basic
import Verif.Model.Path
import Verif.Spec.Path
set_option linter.unusedSimpArgs false
/-! `filepath.Clean` and the places of paths. -/
namespace Verif.Path

/-- What a relative path amounts to: some steps up, then some names (innermost first). -/
abbrev St := Nat × List Bytes

/-- One part of a path. -/
def step (rooted : Bool) (st : St) (w : Bytes) : St :=
  if w = [] ∨ w = b "." then st
  else if w = b ".." then
    match st.2 with
    | _ :: ns => (st.1, ns)
    | [] => if rooted then st else (st.1 + 1, [])
  else (st.1, w :: st.2)

/-- All parts of a path. -/
def run (rooted : Bool) (st : St) (p : Bytes) : St := (parts p).foldl (step rooted) st

theorem b_dot : b "." = [dot] := by decide
theorem b_dotdot : b ".." = [dot, dot] := by decide

theorem step_nil {r st} : step r st [] = st := by simp [step]

theorem parts_ne {p : Bytes} : parts p ≠ [] := by
  cases p with
  | nil => simp [parts]
  | cons c p =>
    simp only [parts]
    split
    · simp
    · split <;> simp

theorem parts_sep (p : Bytes) : parts (sep :: p) = [] :: parts p := by simp [parts, sep]

/-- The first part. -/
theorem parts_append {w : Bytes} (hw : ∀ c ∈ w, c ≠ sep) (r : Bytes) : parts (w ++ sep :: r) = w :: parts r := by
  induction w with
  | nil => exact parts_sep r
  | cons c w ih =>
    have hc : c ≠ 47 := hw c (by simp)
    rw [List.cons_append, parts, if_neg hc, ih fun c h => hw c (by simp [h])]

theorem parts_single {w : Bytes} (hw : ∀ c ∈ w, c ≠ sep) : parts w = [w] := by
  induction w with
  | nil => rfl
  | cons c w ih =>
    have hc : c ≠ 47 := hw c (by simp)
    rw [parts, if_neg hc, ih fun c h => hw c (by simp [h])]

theorem run_sep {r st p} : run r st (sep :: p) = run r st p := by
  rw [run, parts_sep, List.foldl_cons, step_nil]; rfl

theorem run_nil {r st} : run r st [] = st := by simp [run, parts, step_nil]

theorem run_part {r st} {w rest : Bytes} (hw : ∀ c ∈ w, c ≠ sep) (hr : atEnd rest = true) :
    run r st (w ++ rest) = run r (step r st w) rest := by
  cases rest with
  | nil => rw [List.append_nil, run, parts_single hw, run_nil]; rfl
  | cons c rest =>
    simp only [atEnd, decide_eq_true_eq] at hr
    subst hr
    rw [run_sep, run, parts_append hw]; rfl

/-! ## The output of Clean -/

/-- `n` times `..`, in reverse. -/
def ups : Nat → Bytes
  | 0 => []
  | n + 1 => dot :: dot :: (if (ups n).length > 0 then sep :: ups n else ups n)

/-- What comes before the names. -/
def front (rooted : Bool) (k : Nat) : Bytes := if rooted then [sep] else ups k

/-- A separator, unless at the start. -/
def sepIf (rooted : Bool) (out : Bytes) : Bytes := if out.length ≠ (if rooted then 1 else 0) then sep :: out else out

/-- The output for a state, in reverse. -/
def rend (rooted : Bool) (k : Nat) : List Bytes → Bytes
  | [] => front rooted k
  | n :: ns => n.reverse ++ sepIf rooted (rend rooted k ns)

/-- A name of a file. -/
structure Name (n : Bytes) : Prop where
  ne : n ≠ []
  dot : n ≠ b "."
  dotdot : n ≠ b ".."
  sep : ∀ c ∈ n, c ≠ Path.sep

theorem sepIf_le {r out} : out.length ≤ (sepIf r out).length := by
  unfold sepIf
  generalize (if r = true then 1 else 0) = m
  split
  · simp only [List.length_cons]; omega
  · exact Nat.le_refl _

theorem sepIf_cases {r out} : sepIf r out = sep :: out ∨ sepIf r out = out := by
  unfold sepIf
  generalize (if r = true then 1 else 0) = m
  split
  · exact Or.inl rfl
  · exact Or.inr rfl

theorem front_le {r k} : ∀ ns, (front r k).length ≤ (rend r k ns).length
  | [] => Nat.le_refl _
  | n :: ns => by
    have h1 := front_le (r := r) (k := k) ns
    have h2 := sepIf_le (r := r) (out := rend r k ns)
    simp only [rend, List.length_append, List.length_reverse]
    omega

theorem front_lt {r k} {n : Bytes} {ns : List Bytes} (hn : n ≠ []) : (front r k).length < (rend r k (n :: ns)).length := by
  have h1 := front_le (r := r) (k := k) ns
  have h2 : 0 < n.length := List.length_pos_iff.2 hn
  have h3 := sepIf_le (r := r) (out := rend r k ns)
  simp only [rend, List.length_append, List.length_reverse]
  omega

theorem front_min {r k} : (if r = true then 1 else 0) ≤ (front r k).length := by
  cases r <;> simp [front]

/-- Backing up over a name at the start. -/
theorem backtrack_start {dd : Nat} : ∀ {n : Bytes}, (∀ c ∈ n, c ≠ sep) → n ≠ [] → ∀ {out : Bytes}, out.length = dd →
    backtrack dd (n ++ out) = out
  | [], _, h, _, _ => absurd rfl h
  | [c], hn, _, out, ho => by
    simp only [List.cons_append, List.nil_append, backtrack]
    rw [if_neg (by omega)]
  | c :: c' :: n, hn, _, out, ho => by
    rw [List.cons_append, backtrack, if_pos ⟨by simp only [List.cons_append, List.length_cons, List.length_append]; omega, hn c (by simp)⟩]
    exact backtrack_start (fun c h => hn c (by simp [h])) (by simp) ho

/-- Backing up over a name after a separator. -/
theorem backtrack_sep {dd : Nat} : ∀ {n : Bytes}, (∀ c ∈ n, c ≠ sep) → n ≠ [] → ∀ {out : Bytes}, dd ≤ out.length →
    backtrack dd (n ++ sep :: out) = out
  | [], _, h, _, _ => absurd rfl h
  | [c], hn, _, out, ho => by
    simp only [List.cons_append, List.nil_append, backtrack]
    rw [if_pos ⟨by simp only [List.length_cons]; omega, hn c (by simp)⟩]
    simp
  | c :: c' :: n, hn, _, out, ho => by
    rw [List.cons_append, backtrack, if_pos ⟨by simp only [List.cons_append, List.length_cons, List.length_append]; omega, hn c (by simp)⟩]
    exact backtrack_sep (fun c h => hn c (by simp [h])) (by simp) ho

theorem backtrack_rend {r k} {n : Bytes} {ns : List Bytes} (hn : Name n) :
    backtrack (front r k).length (rend r k (n :: ns)) = rend r k ns := by
  have h1 : ∀ c ∈ n.reverse, c ≠ sep := fun c h => hn.sep c (List.mem_reverse.1 h)
  have h2 : n.reverse ≠ [] := by simpa using hn.ne
  have h3 := front_le (r := r) (k := k) ns
  have h4 := front_min (r := r) (k := k)
  simp only [rend, sepIf]
  generalize (if r = true then 1 else 0) = m at h4 ⊢
  split
  · exact backtrack_sep h1 h2 h3
  · exact backtrack_start h1 h2 (by omega)

theorem takeWhile_ne (p : Bytes) : ∀ c ∈ p.takeWhile (· ≠ sep), c ≠ sep := by
  induction p with
  | nil => simp
  | cons c p ih =>
    rw [List.takeWhile_cons]
    split
    · rename_i h
      intro d hd
      rcases List.mem_cons.1 hd with rfl | hd
      · simpa using h
      · exact ih d hd
    · simp

theorem dropWhile_end (p : Bytes) : atEnd (p.dropWhile (· ≠ sep)) = true := by
  induction p with
  | nil => rfl
  | cons c p ih =>
    rw [List.dropWhile_cons]
    split
    · exact ih
    · rename_i h
      simpa [atEnd] using h

theorem run_word {r st} {c : UInt8} {p : Bytes} : run r st (c :: p) =
    run r (step r st ((c :: p).takeWhile (· ≠ sep))) ((c :: p).dropWhile (· ≠ sep)) := by
  rw [← run_part (takeWhile_ne _) (dropWhile_end _), List.takeWhile_append_dropWhile]

/-- The states that occur. -/
def Ok (r : Bool) (st : St) : Prop := (r = true → st.1 = 0) ∧ ∀ n ∈ st.2, Name n

/-- The length that must stay. -/
theorem front_up {k : Nat} : dot :: dot :: (if (rend false k []).length > 0 then sep :: rend false k [] else rend false k []) = rend false (k + 1) [] := rfl

theorem step_name {r st} {n : Bytes} (hn : Name n) : step r st n = (st.1, n :: st.2) := by
  rw [step, if_neg (by rintro (h | h); exacts [hn.ne h, hn.dot h]), if_neg hn.dotdot]

theorem step_dot {r st} : step r st [dot] = st := by simp [step, b_dot]

theorem step_dotdot {r st} : step r st [dot, dot] = match st.2 with
    | _ :: ns => (st.1, ns)
    | [] => if r then st else (st.1 + 1, []) := by
  rw [step, if_neg (by simp [b_dot]), if_pos b_dotdot.symm]

theorem ok_step {r st} {w : Bytes} (hw : ∀ c ∈ w, c ≠ sep) (h : Ok r st) : Ok r (step r st w) := by
  unfold step
  split
  · exact h
  · rename_i h1
    split
    · cases hs : st.2 with
      | cons n ns => exact ⟨h.1, fun n' hn' => h.2 n' (by rw [hs]; simp [hn'])⟩
      | nil =>
        cases r with
        | true => exact h
        | false => exact ⟨by simp, by simp⟩
    · rename_i h2
      refine ⟨h.1, ?_⟩
      intro n hn
      rcases List.mem_cons.1 hn with rfl | hn
      · exact ⟨fun e => h1 (Or.inl e), fun e => h1 (Or.inr e), h2, hw⟩
      · exact h.2 n hn

/-- The loop of Clean. -/
theorem cleanLoop_eq {r : Bool} : ∀ (fuel : Nat) (p : Bytes) (st : St), p.length ≤ fuel → Ok r st →
    cleanLoop r fuel p (rend r st.1 st.2) (front r st.1).length = rend r (run r st p).1 (run r st p).2
  | 0, p, st, hl, _ => by
    have : p = [] := List.length_eq_zero_iff.1 (by omega)
    subst this
    rw [run_nil]; rfl
  | fuel + 1, [], st, _, _ => by rw [run_nil]; rfl
  | fuel + 1, c :: p, st, hl, hok => by
    simp only [List.length_cons] at hl
    rw [cleanLoop]
    by_cases h1 : c = sep
    · rw [if_pos h1, h1, run_sep]
      exact cleanLoop_eq fuel p st (by omega) hok
    rw [if_neg h1]
    by_cases h2 : c = dot ∧ atEnd p = true
    · rw [if_pos h2]
      have : run r st (c :: p) = run r st p := by
        have := run_part (r := r) (st := st) (w := [dot]) (rest := p) (by simp [dot, sep]) h2.2
        rw [step_dot] at this
        rw [h2.1]; exact this
      rw [this]
      exact cleanLoop_eq fuel p st (by omega) hok
    rw [if_neg h2]
    by_cases h3 : c = dot ∧ p.head? = some dot ∧ atEnd p.tail = true
    · rw [if_pos h3]
      obtain ⟨p', rfl⟩ : ∃ p', p = dot :: p' := by
        cases p with
        | nil => simp at h3
        | cons d p' => simp only [List.head?_cons, Option.some.injEq] at h3; exact ⟨p', by rw [h3.2.1]⟩
      simp only [List.tail_cons, List.length_cons] at h3 hl ⊢
      have hrun : run r st (c :: dot :: p') = run r (step r st [dot, dot]) p' := by
        have := run_part (r := r) (st := st) (w := [dot, dot]) (rest := p') (by simp [dot, sep]) h3.2.2
        rw [h3.1]; exact this
      have hok' : Ok r (step r st [dot, dot]) := ok_step (by simp [dot, sep]) hok
      have ih := cleanLoop_eq (r := r) fuel p' (step r st [dot, dot]) (by omega) hok'
      rw [hrun, ← ih]
      obtain ⟨k, ns⟩ := st
      cases ns with
      | cons n ns =>
        have hn : Name n := hok.2 n (by simp)
        simp only [step_dotdot]
        rw [if_pos (front_lt hn.ne), backtrack_rend hn]
      | nil =>
        simp only [step_dotdot]
        rw [if_neg (by simp [rend])]
        cases r with
        | true => rfl
        | false => rfl
    · rw [if_neg h3, run_word (c := c) (p := p)]
      have hw := takeWhile_ne (c :: p)
      generalize hweq : (c :: p).takeWhile (· ≠ sep) = w at hw ⊢
      have hcat : w ++ (c :: p).dropWhile (· ≠ sep) = c :: p := by rw [← hweq]; exact List.takeWhile_append_dropWhile
      have hend := dropWhile_end (c :: p)
      generalize (c :: p).dropWhile (· ≠ sep) = rest at hcat hend ⊢
      have hname : Name w := by
        refine ⟨?_, ?_, ?_, hw⟩
        · rintro rfl
          simp only [List.takeWhile_cons, h1, ne_eq, not_false_eq_true, decide_true, if_true, reduceCtorEq] at hweq
        · intro e
          rw [e, b_dot, List.cons_append, List.nil_append, List.cons.injEq] at hcat
          exact h2 ⟨hcat.1.symm, hcat.2 ▸ hend⟩
        · intro e
          rw [e, b_dotdot] at hcat
          simp only [List.cons_append, List.nil_append, List.cons.injEq] at hcat
          refine h3 ⟨hcat.1.symm, ?_, ?_⟩
          · rw [← hcat.2]; rfl
          · rw [← hcat.2]; exact hend
      have hlen : w.length + rest.length = p.length + 1 := by
        have := congrArg List.length hcat
        simpa using this
      have hpos : 0 < w.length := List.length_pos_iff.2 hname.ne
      have ih := cleanLoop_eq (r := r) fuel rest (step r st w) (by omega) (ok_step hw hok)
      rw [← ih, step_name hname]
      rfl

/-! ## Parts of the output -/

theorem parts_snoc {w : Bytes} (hw : ∀ c ∈ w, c ≠ sep) (p : Bytes) : parts (p ++ sep :: w) = parts p ++ [w] := by
  induction p with
  | nil => rw [List.nil_append, parts_sep, parts_single hw]; rfl
  | cons c p ih =>
    rw [List.cons_append, parts, parts, ih]
    split
    · rfl
    · cases hp : parts p with
      | nil => exact absurd hp parts_ne
      | cons v vs => rfl

theorem run_snoc {r st} {w : Bytes} (hw : ∀ c ∈ w, c ≠ sep) (p : Bytes) : run r st (p ++ sep :: w) = step r (run r st p) w := by
  rw [run, parts_snoc hw, List.foldl_append]; rfl

theorem run_single {r st} {w : Bytes} (hw : ∀ c ∈ w, c ≠ sep) : run r st w = step r st w := by
  rw [run, parts_single hw]; rfl

theorem run_ups : ∀ k, run false (0, []) (ups k).reverse = (k, [])
  | 0 => run_nil
  | k + 1 => by
    have ih := run_ups k
    have hd : ∀ c ∈ [dot, dot], c ≠ sep := by simp [dot, sep]
    rw [ups]
    cases hu : ups k with
    | nil =>
      rw [hu] at ih
      have : k = 0 := by
        rw [List.reverse_nil, run_nil] at ih
        exact (Prod.ext_iff.1 ih).1.symm
      subst this
      exact run_single hd
    | cons c u =>
      rw [hu] at ih
      have : (dot :: dot :: (if (c :: u).length > 0 then sep :: c :: u else c :: u)).reverse = (c :: u).reverse ++ sep :: [dot, dot] := by
        simp
      rw [this, run_snoc hd, ih, step_dotdot]
      rfl

theorem run_front {r k} (h : r = true → k = 0) : run r (0, []) (front r k).reverse = (k, []) := by
  cases r with
  | true => rw [h rfl]; exact (run_sep (p := [])).trans run_nil
  | false => exact run_ups k

/-- Reading the output again. -/
theorem run_rend {r k} : ∀ {ns : List Bytes}, Ok r (k, ns) → run r (0, []) (rend r k ns).reverse = (k, ns)
  | [], h => run_front h.1
  | n :: ns, h => by
    have hn : Name n := h.2 n (by simp)
    have ih := run_rend (r := r) (k := k) (ns := ns) ⟨h.1, fun n' h' => h.2 n' (by simp [h'])⟩
    have h1 := front_le (r := r) (k := k) ns
    have h4 := front_min (r := r) (k := k)
    rw [rend, List.reverse_append, List.reverse_reverse]
    by_cases hs : (rend r k ns).length ≠ (if r = true then 1 else 0)
    · have : sepIf r (rend r k ns) = sep :: rend r k ns := by rw [sepIf, if_pos hs]
      rw [this, List.reverse_cons, List.append_assoc, List.singleton_append, run_snoc hn.sep, ih, step_name hn]
    · have : sepIf r (rend r k ns) = rend r k ns := by rw [sepIf, if_neg hs]
      rw [this]
      have hns : ns = [] := by
        cases ns with
        | nil => rfl
        | cons n' ns' =>
          have := front_lt (r := r) (k := k) (n := n') (ns := ns') (h.2 n' (by simp)).ne
          omega
      subst hns
      cases r with
      | true =>
        have := h.1 rfl
        simp only at this
        subst this
        show run true (0, []) ([sep] ++ n) = _
        rw [List.singleton_append, run_sep, run_single hn.sep, step_name hn]
      | false =>
        have hl : (rend false k []).length = 0 := by simpa using hs
        rw [List.length_eq_zero_iff.1 hl] at ih ⊢
        rw [List.reverse_nil, run_nil] at ih
        rw [List.reverse_nil, List.nil_append, run_single hn.sep, step_name hn]
        have hk : (0 : Nat) = k := (Prod.ext_iff.1 ih).1
        subst hk; rfl

theorem parts_nosep (p : Bytes) : ∀ w ∈ parts p, ∀ c ∈ w, c ≠ sep := by
  induction p with
  | nil => simp [parts]
  | cons c p ih =>
    rw [parts]
    split
    · intro w hw
      rcases List.mem_cons.1 hw with rfl | hw
      · simp
      · exact ih w hw
    · rename_i hc
      cases hp : parts p with
      | nil => exact absurd hp parts_ne
      | cons v vs =>
        rw [hp] at ih
        intro w hw
        rcases List.mem_cons.1 hw with rfl | hw
        · intro d hd
          rcases List.mem_cons.1 hd with rfl | hd
          · exact hc
          · exact ih v (by simp) d hd
        · exact ih w (by simp [hw])

theorem ok_foldl {r} : ∀ (l : List Bytes) (st : St), (∀ w ∈ l, ∀ c ∈ w, c ≠ sep) → Ok r st → Ok r (l.foldl (step r) st)
  | [], _, _, h => h
  | w :: l, st, hl, h => ok_foldl l _ (fun w' h' => hl w' (by simp [h'])) (ok_step (hl w (by simp)) h)

theorem ok_run {r p} : Ok r (run r (0, []) p) := ok_foldl _ _ (parts_nosep p) ⟨fun _ => rfl, by simp⟩

/-- What a path amounts to. -/
def state (p : Bytes) : St := run (isAbs p) (0, []) p

/-- The text of a state. -/
def text (r : Bool) (st : St) : Bytes := if rend r st.1 st.2 = [] then [dot] else (rend r st.1 st.2).reverse

theorem clean_eq (p : Bytes) : clean p = text (isAbs p) (state p) := by
  unfold clean
  by_cases h : p = []
  · subst h; rfl
  · rw [if_neg h]
    by_cases ha : isAbs p = true
    · rw [if_pos ha]
      obtain ⟨q, rfl⟩ : ∃ q, p = sep :: q := by
        cases p with
        | nil => exact absurd rfl h
        | cons c q => simp only [isAbs, List.head?_cons, Option.some.injEq, decide_eq_true_eq] at ha; exact ⟨q, by rw [ha]⟩
      have := cleanLoop_eq (r := true) (sep :: q).length q (0, []) (by simp) ⟨fun _ => rfl, by simp⟩
      simp only [text, state, ha, run_sep]
      rw [← this]
      rfl
    · rw [if_neg ha]
      simp only [Bool.not_eq_true] at ha
      have := cleanLoop_eq (r := false) p.length p (0, []) (Nat.le_refl _) ⟨by simp, by simp⟩
      simp only [text, state, ha]
      rw [← this]
      rfl

theorem rend_head {r k ns} : r = true → (rend r k ns).reverse.head? = some sep := by
  rintro rfl
  induction ns with
  | nil => rfl
  | cons n ns ih =>
    rw [rend, List.reverse_append]
    cases hs : (rend true k ns).reverse with
    | nil => rw [hs] at ih; cases ih
    | cons c o =>
      rw [hs] at ih
      rcases sepIf_cases (r := true) (out := rend true k ns) with e | e
      · rw [e, List.reverse_cons, hs]; exact ih
      · rw [e, hs]; exact ih

theorem ups_head : ∀ k, (ups k).reverse.head? ≠ some sep
  | 0 => by simp [ups]
  | k + 1 => by
    have ih := ups_head k
    rw [ups]
    cases hu : (ups k).reverse with
    | nil =>
      have : ups k = [] := by simpa using hu
      simp [this, dot, sep]
    | cons c o =>
      rw [hu] at ih
      have hl : (ups k).length > 0 := by
        have := congrArg List.length hu
        simp only [List.length_reverse, List.length_cons] at this; omega
      rw [if_pos hl]
      simp only [List.reverse_cons, hu, List.cons_append, List.head?_cons] at ih ⊢
      exact ih

theorem rend_head_false {k ns} (h : ∀ n ∈ ns, Name n) : (rend false k ns).reverse.head? ≠ some sep := by
  induction ns with
  | nil => exact ups_head k
  | cons n ns ih =>
    have ih := ih fun n' h' => h n' (by simp [h'])
    have hn := h n (by simp)
    rw [rend, List.reverse_append, List.reverse_reverse]
    cases hs : (rend false k ns).reverse with
    | nil =>
      have : rend false k ns = [] := by simpa using hs
      rw [this]
      cases n with
      | nil => exact absurd rfl hn.ne
      | cons c n =>
        have := hn.sep c (by simp)
        simpa [sepIf] using this
    | cons c o =>
      rw [hs] at ih
      rcases sepIf_cases (r := false) (out := rend false k ns) with e | e
      · rw [e, List.reverse_cons, hs]; exact ih
      · rw [e, hs]; exact ih

theorem isAbs_text {r st} (h : Ok r st) : isAbs (text r st) = r := by
  unfold text isAbs
  split
  · rename_i he
    cases r with
    | true => have := rend_head (r := true) (k := st.1) (ns := st.2) rfl; rw [he] at this; cases this
    | false => decide
  · cases r with
    | true => simp [rend_head (r := true) (k := st.1) (ns := st.2) rfl]
    | false => simpa using rend_head_false (k := st.1) h.2

theorem state_text {r st} (h : Ok r st) : state (text r st) = st := by
  rw [state, isAbs_text h, text]
  split
  · rename_i he
    have := run_rend (r := r) (k := st.1) (ns := st.2) h
    rw [he, List.reverse_nil, run_nil] at this
    rw [run_single (by simp [dot, sep]), step_dot, this]
  · exact run_rend h

theorem ok_state (p : Bytes) : Ok (isAbs p) (state p) := ok_run

theorem isAbs_clean (p : Bytes) : isAbs (clean p) = isAbs p := by rw [clean_eq, isAbs_text (ok_state p)]

theorem state_clean (p : Bytes) : state (clean p) = state p := by rw [clean_eq, state_text (ok_state p)]

/-! ## Places -/

/-- The place of a state. -/
def St.from (st : St) (d : List Bytes) : List Bytes := st.2 ++ d.drop st.1

theorem stepTo_from {r} {st : St} {d : List Bytes} {w : Bytes} (hd : r = true → d = []) (ho : r = true → st.1 = 0) :
    stepTo (St.from st d) w = St.from (step r st w) d := by
  unfold stepTo step
  split
  · rfl
  · split
    · obtain ⟨k, ns⟩ := st
      cases ns with
      | cons n ns => rfl
      | nil =>
        cases r with
        | true =>
          have h1 := hd rfl
          have h2 := ho rfl
          simp only at h2
          subst h1; subst h2; rfl
        | false => simp [St.from, List.tail_drop]
    · rfl

theorem foldl_from {r} {d : List Bytes} (hd : r = true → d = []) : ∀ (l : List Bytes) (st : St), (r = true → st.1 = 0) →
    l.foldl stepTo (St.from st d) = St.from (l.foldl (step r) st) d
  | [], _, _ => rfl
  | w :: l, st, h => by
    rw [List.foldl_cons, List.foldl_cons, stepTo_from hd h]
    refine foldl_from hd l _ ?_
    intro hr
    have := h hr
    unfold step
    split
    · exact this
    · split
      · cases st.2 with
        | cons n ns => exact this
        | nil => simp only [hr, if_true]; exact this
      · exact this

theorem place_eq (d : List Bytes) (p : Bytes) : place d p = St.from (state p) (if isAbs p then [] else d) := by
  have he : (if p.head? = some 47 then [] else d) = if isAbs p then [] else d := by
    by_cases h : p.head? = some 47 <;> simp [isAbs, sep, h]
  rw [place, walk, he]
  have := foldl_from (r := isAbs p) (d := if isAbs p then [] else d) (by intro h; rw [h]; rfl) (parts p) (0, []) (fun _ => rfl)
  rw [show St.from (0, []) (if isAbs p then [] else d) = (if isAbs p then [] else d) from by simp [St.from]] at this
  exact this

theorem place_clean (d : List Bytes) (p : Bytes) : place d (clean p) = place d p := by
  rw [place_eq, place_eq, state_clean, isAbs_clean]

theorem clean_clean (p : Bytes) : clean (clean p) = clean p := by
  rw [clean_eq (clean p), isAbs_clean, state_clean, ← clean_eq]

theorem parts_join (a c : Bytes) : parts (a ++ sep :: c) = parts a ++ parts c := by
  induction a with
  | nil => rw [List.nil_append, parts_sep]; rfl
  | cons x a ih =>
    rw [List.cons_append, parts, parts, ih]
    split
    · rfl
    · cases hp : parts a with
      | nil => exact absurd hp parts_ne
      | cons v vs => rfl

theorem isAbs_iff {p : Bytes} : isAbs p = true ↔ p.head? = some 47 := by
  unfold isAbs sep; exact decide_eq_true_iff

theorem place_rel {d : List Bytes} {p : Bytes} (h : isAbs p = false) : place d p = walk d p := by
  rw [place, if_neg]
  intro e
  rw [isAbs_iff.2 e] at h; cases h

theorem place_abs {d : List Bytes} {p : Bytes} (h : isAbs p = true) : place d p = walk [] p := by
  rw [place, if_pos (isAbs_iff.1 h)]

theorem walk_nil (d : List Bytes) : walk d [] = d := rfl

/-- The place of a joined path. -/
theorem place_join {d : List Bytes} {a c : Bytes} (h : a ≠ [] ∨ isAbs c = false) : place d (join a c) = walk (place d a) c := by
  unfold join
  by_cases ha : a = []
  · subst ha
    have hc := h.resolve_left (by simp)
    rw [if_pos rfl]
    show _ = walk d c
    split
    · rename_i e; subst e; rfl
    · rw [place_clean, place_rel hc]
  · rw [if_neg ha]
    split
    · rename_i e; subst e; rw [place_clean]; rfl
    · rw [place_clean]
      cases a with
      | nil => exact absurd rfl ha
      | cons x a =>
        rw [place, place, List.cons_append, List.head?_cons, List.head?_cons, ← List.cons_append, walk, parts_join, List.foldl_append]
        rfl

theorem isAbs_join {a c : Bytes} (ha : isAbs a = true) : isAbs (join a c) = true := by
  have hne : a ≠ [] := by rintro rfl; simp [isAbs] at ha
  unfold join
  rw [if_neg hne]
  split
  · rw [isAbs_clean, ha]
  · rw [isAbs_clean]
    cases a with
    | nil => exact absurd rfl hne
    | cons x a => exact ha

/-- Two relative paths that lead to the same place from everywhere, or two absolute ones to the same place, are the same
when cleaned. -/
theorem clean_canonical {p q : Bytes} (ha : isAbs p = isAbs q) (h : ∀ d, place d p = place d q) : clean p = clean q := by
  have hs : state p = state q := by
    simp only [place_eq, ← ha] at h
    rcases hp : state p with ⟨k, ns⟩
    rcases hq : state q with ⟨k', ns'⟩
    rw [hp, hq] at h
    cases hr : isAbs p with
    | true =>
      have h1 := (ok_state p).1 hr
      have h2 := (ok_state q).1 (ha ▸ hr)
      rw [hp] at h1; rw [hq] at h2
      simp only at h1 h2
      subst h1; subst h2
      have := h []
      simpa [St.from, hr] using this
    | false =>
      have hlen : ∀ n, ns.length + (n - k) = ns'.length + (n - k') := by
        intro n
        have := congrArg List.length (h (List.replicate n []))
        simpa [St.from, hr] using this
      have h1 := hlen (k + k')
      have h2 := hlen 0
      have hk : k = k' := by
        simp only [Nat.zero_sub, Nat.add_zero] at h2
        omega
      subst hk
      have := h []
      simp only [St.from, hr, List.drop_nil, List.append_nil] at this
      simpa using this
  rw [clean_eq, clean_eq, hs, ha]

theorem isAbs_false {p : Bytes} (h : ¬ Absolute p) : isAbs p = false := by
  cases hp : isAbs p with
  | false => rfl
  | true => exact absurd (isAbs_iff.1 hp) h

/-! ## What the functions open -/

theorem expand_plain {home} {p : Bytes} (h : ¬ Tilde p) : expand home p = some p := by
  cases p with
  | nil => rfl
  | cons c p =>
    rw [expand.eq_def]
    simp only
    rw [if_pos]
    intro e; exact h (by rw [e]; rfl)

theorem expand_home {h rest : Bytes} (hr : rest = [] ∨ rest.head? = some 47 ∨ rest.head? = some 92) :
    expand (some h) (126 :: rest) = some (join h rest) := by
  cases rest with
  | nil => rfl
  | cons d rest =>
    simp only [List.head?_cons, Option.some.injEq, reduceCtorEq, false_or] at hr
    show (if d ≠ sep ∧ d ≠ 92 then none else _) = _
    rw [if_neg]
    · rfl
    · rintro ⟨h1, h2⟩
      rcases hr with rfl | rfl
      · exact h1 rfl
      · exact h2 rfl

theorem expand_home_cases {home : Option Bytes} {p q : Bytes} (h : expand home p = some q) :
    (¬ Tilde p ∧ q = p) ∨ ∃ h rest, home = some h ∧ p = 126 :: rest ∧ q = join h rest := by
  by_cases ht : Tilde p
  · right
    cases p with
    | nil => cases ht
    | cons c p =>
      have hc : c = 126 := by simpa [Tilde] using ht
      subst hc
      cases p with
      | nil =>
        change home.map _ = _ at h
        simp only [Option.map_eq_some_iff] at h
        obtain ⟨a, ha, e⟩ := h
        exact ⟨a, [], ha, rfl, e.symm⟩
      | cons d p =>
        change (if d ≠ sep ∧ d ≠ 92 then none else home.map _) = _ at h
        split at h
        · cases h
        · simp only [Option.map_eq_some_iff] at h
          obtain ⟨a, ha, e⟩ := h
          exact ⟨a, _, ha, rfl, e.symm⟩
  · rw [expand_plain ht] at h
    exact Or.inl ⟨ht, (Option.some.inj h).symm⟩

theorem isAbs_openPath {home : Option Bytes} {base p q : Bytes} (hb : Absolute base) (h : openPath home base p = some q) :
    isAbs q = true := by
  simp only [openPath, Option.map_eq_some_iff] at h
  obtain ⟨a, _, e⟩ := h
  subst e
  rw [isAbs_clean]
  split
  · assumption
  · exact isAbs_join (isAbs_iff.2 hb)

theorem place_abs_any {p : Bytes} (h : isAbs p = true) (d d' : List Bytes) : place d p = place d' p := by
  rw [place_abs h, place_abs h]

/-! ## Staying in a directory -/

theorem staysIn_state : ∀ (ws : List Bytes) (st : St), st.1 = 0 →
    (staysIn st.2.length ws = true ↔ (ws.foldl (step false) st).1 = 0)
  | [], st, h => by simp [staysIn, h]
  | w :: ws, st, h => by
    rw [List.foldl_cons, staysIn.eq_def]
    simp only
    by_cases h1 : w = [] ∨ w = b "."
    · rw [if_pos h1, show step false st w = st from by rw [step, if_pos h1]]
      exact staysIn_state ws st h
    · rw [if_neg h1]
      by_cases h2 : w = b ".."
      · rw [if_pos h2]
        obtain ⟨k, ns⟩ := st
        simp only at h
        subst h
        cases ns with
        | nil =>
          have hs : step false (0, []) w = (1, []) := by rw [step, if_neg h1, if_pos h2]; rfl
          rw [hs]
          simp only [List.length_nil, Bool.false_eq_true, false_iff]
          have : ∀ (l : List Bytes) (st : St), 1 ≤ st.1 → 1 ≤ (l.foldl (step false) st).1 := by
            intro l
            induction l with
            | nil => intro st h; exact h
            | cons x l ih =>
              intro st h
              rw [List.foldl_cons]
              apply ih
              rw [step]
              split
              · exact h
              · split
                · split
                  · exact h
                  · simp
                · exact h
          have := this ws (1, []) (Nat.le_refl 1)
          omega
        | cons n ns =>
          have hs : step false (0, n :: ns) w = (0, ns) := by rw [step, if_neg h1, if_pos h2]
          rw [hs]
          exact staysIn_state ws (0, ns) rfl
      · rw [if_neg h2]
        have hs : step false st w = (st.1, w :: st.2) := by rw [step, if_neg h1, if_neg h2]
        rw [hs]
        exact staysIn_state ws (st.1, w :: st.2) h

theorem staysIn_iff {p : Bytes} (hr : isAbs p = false) : staysIn 0 (parts p) = true ↔ (state p).1 = 0 := by
  have := staysIn_state (parts p) (0, []) rfl
  rw [state, run, hr]
  exact this

/-- There is a name that differs from all given ones. -/
theorem exists_fresh (ns : List Bytes) : ∃ n : Bytes, Name n ∧ n ∉ ns := by
  have hb : ∃ N, ∀ x ∈ ns, x.length ≤ N := by
    induction ns with
    | nil => exact ⟨0, by simp⟩
    | cons x ns ih =>
      obtain ⟨N, h⟩ := ih
      refine ⟨max N x.length, ?_⟩
      intro y hy
      rcases List.mem_cons.1 hy with rfl | hy
      · exact Nat.le_max_right _ _
      · exact Nat.le_trans (h y hy) (Nat.le_max_left _ _)
  obtain ⟨N, h⟩ := hb
  refine ⟨List.replicate (N + 3) 120, ?_, ?_⟩
  · refine ⟨?_, ?_, ?_, ?_⟩
    · simp [List.replicate_succ]
    all_goals simp [List.replicate_succ, b_dot, b_dotdot, dot, sep, List.mem_replicate]
  · intro hm
    have := h _ hm
    rw [List.length_replicate] at this
    omega

theorem walk_eq {p : Bytes} (hr : isAbs p = false) (d : List Bytes) : walk d p = (state p).2 ++ d.drop (state p).1 := by
  rw [← place_rel hr, place_eq, hr]; rfl

/-! ## The last element -/

theorem dropWhile_snoc (p : Bytes) : ∀ (r : Bytes), r = p.reverse.dropWhile (· ≠ sep) → r = [] ∨ ∃ r', r = sep :: r' := by
  intro r hr
  cases r with
  | nil => exact Or.inl rfl
  | cons c r =>
    right
    have := dropWhile_end p.reverse
    rw [← hr] at this
    have hc : c = sep := by simpa [atEnd] using this
    exact ⟨r, by rw [hc]⟩

/-- A path is a directory part, which is empty or ends with a slash, and a last part without slashes. -/
theorem split_last (p : Bytes) : ∃ pre w : Bytes, p = pre ++ w ∧ (∀ c ∈ w, c ≠ sep) ∧ (pre = [] ∨ ∃ pre', pre = pre' ++ [sep]) ∧
    pre = (p.reverse.dropWhile (· ≠ sep)).reverse ∧ w = (p.reverse.takeWhile (· ≠ sep)).reverse := by
  refine ⟨_, _, ?_, ?_, ?_, rfl, rfl⟩
  · rw [← List.reverse_append, List.takeWhile_append_dropWhile, List.reverse_reverse]
  · intro c hc
    exact takeWhile_ne _ c (List.mem_reverse.1 hc)
  · rcases dropWhile_snoc p _ rfl with h | ⟨r', h⟩
    · left; rw [h]; rfl
    · right; exact ⟨r'.reverse, by rw [h, List.reverse_cons]⟩

theorem parts_trail (p : Bytes) : parts (p ++ [sep]) = parts p ++ [[]] := parts_join p []

theorem walk_split {pre w : Bytes} (hp : pre = [] ∨ ∃ pre', pre = pre' ++ [sep]) (d : List Bytes) :
    walk d (pre ++ w) = walk (walk d pre) w := by
  rcases hp with rfl | ⟨pre', rfl⟩
  · rfl
  · rw [List.append_assoc, List.singleton_append]
    rw [walk, walk, walk, parts_trail, parts_join, List.foldl_append, List.foldl_append]
    rfl

theorem place_split {pre w : Bytes} (hw : ∀ c ∈ w, c ≠ sep) (hp : pre = [] ∨ ∃ pre', pre = pre' ++ [sep]) (d : List Bytes) :
    place d (pre ++ w) = walk (place d pre) w := by
  rcases hp with rfl | hp
  · rw [List.nil_append]
    rw [place_rel]
    · rfl
    · apply isAbs_false
      intro h
      cases w with
      | nil => cases h
      | cons c w => exact hw c (by simp) (by simpa [Absolute, sep] using h)
  · rw [place, place]
    have : (pre ++ w).head? = pre.head? := by
      obtain ⟨pre', rfl⟩ := hp
      cases pre' <;> rfl
    rw [this, walk_split (Or.inr hp)]

theorem of_mem_takeWhile_sep {c : UInt8} : ∀ {l : Bytes}, c ∈ l.takeWhile (· = sep) → c = 47
  | [], h => by cases h
  | x :: l, h => by
    rw [List.takeWhile_cons] at h
    split at h
    · rename_i hx
      rcases List.mem_cons.1 h with rfl | h
      · exact decide_eq_true_iff.1 hx
      · exact of_mem_takeWhile_sep h
    · cases h
end Verif.Path
