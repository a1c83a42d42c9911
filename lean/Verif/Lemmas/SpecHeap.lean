import Verif.Spec.SpecHeap
import Verif.Lemmas.Spec
import Mathlib.Data.List.Forall2
/-!
# Building specifications in memory
-/
namespace Verif.SpecHeap
open Spec (SpecErr SVal SPair Struct Value collectM)

/-! ## Reading -/

theorem view_congr {s s' : Ptr → Struct} {r : RVal} (h : ∀ p ∈ r.pointers, s p = s' p) : r.view s = r.view s' := by
  cases r with
  | single p => simp only [RVal.view, h p (by simp [RVal.pointers])]
  | list l =>
    simp only [RVal.view]
    congr 1
    exact List.map_congr_left h
  | map m =>
    simp only [RVal.view]
    congr 1
    refine List.map_congr_left fun e he => ?_
    rw [h e.2 (List.mem_map.2 ⟨e, he, rfl⟩)]
  | map2 m =>
    simp only [RVal.view]
    congr 1
    refine List.map_congr_left fun e he => ?_
    congr 1
    refine List.map_congr_left fun x hx => ?_
    rw [h x.2 (by simp only [RVal.pointers, List.mem_flatMap, List.mem_map]; exact ⟨e, he, x, hx, rfl⟩)]

/-- Two memories that agree on a set of addresses that is closed under following pointers are read alike from there. -/
theorem readS_agree {h h' : Heap} {S : Ptr → Prop} (hs : ∀ p, S p → p.bind (h[·]?) = p.bind (h'[·]?))
    (hc : ∀ p c, S p → p.bind (h[·]?) = some c → ∀ q ∈ c.pointers, S q) : ∀ n p, S p → readS h n p = readS h' n p := by
  intro n
  induction n with
  | zero => intro p _; rfl
  | succ n ih =>
    intro p hp
    simp only [readS]
    rw [← hs p hp]
    cases hb : p.bind (h[·]?) with
    | none => rfl
    | some c =>
      dsimp only
      congr 1
      cases hf : c.fields with
      | none => rfl
      | some fs =>
        simp only [Option.map_some]
        congr 1
        refine List.map_congr_left fun e he => ?_
        congr 1
        refine view_congr fun q hq => ih q (hc p c hp hb q ?_)
        simp only [Cell.pointers, hf, Option.getD_some, List.mem_flatMap]
        exact ⟨e, he, hq⟩

theorem readS_append {h new : Heap} (hc : Closed h) {n : Nat} {p : Ptr} (hp : Valid h.length p) : readS (h ++ new) n p = readS h n p := by
  refine (readS_agree (S := Valid h.length) ?_ ?_ n p hp).symm
  · intro p hp
    cases p with
    | none => rfl
    | some a => simp only [Option.bind_some, List.getElem?_append_left (hp a rfl)]
  · intro p c hp hb q hq
    cases p with
    | none => cases hb
    | some a => exact hc c (List.mem_of_getElem? hb) q hq

/-! ## What a run keeps -/

/-- A new struct, or one of the pointers allowed. -/
def Q (A : Ptr → Prop) (base len : Nat) (p : Ptr) : Prop := (∃ a, p = some a ∧ base ≤ a ∧ a < len) ∨ A p

theorem Q.mono {A : Ptr → Prop} {base len len' : Nat} {p : Ptr} (h : Q A base len p) (hl : len ≤ len') : Q A base len' p := by
  rcases h with ⟨a, h1, h2, h3⟩ | h
  · exact Or.inl ⟨a, h1, h2, by omega⟩
  · exact Or.inr h

/-- The memory after `h0`: new structs with such pointers only. -/
structure Fresh (A : Ptr → Prop) (h0 h : Heap) : Prop where
  ext : ∃ new, h = h0 ++ new
  cells : ∀ i c, h0.length ≤ i → h[i]? = some c → ∀ p ∈ c.pointers, Q A h0.length h.length p

theorem Fresh.refl (A : Ptr → Prop) (h : Heap) : Fresh A h h := by
  refine ⟨⟨[], by simp⟩, fun i c hi hc => ?_⟩
  rw [List.getElem?_eq_none hi] at hc; cases hc

theorem Fresh.len {A : Ptr → Prop} {h0 h : Heap} (hf : Fresh A h0 h) : h0.length ≤ h.length := by
  obtain ⟨new, rfl⟩ := hf.ext; simp

theorem Fresh.closed {A : Ptr → Prop} {h0 h : Heap} (hf : Fresh A h0 h) (hc : Closed h0) (hA : ∀ p, A p → Valid h0.length p) : Closed h := by
  intro c hm p hp a ha
  obtain ⟨i, hi⟩ := List.getElem?_of_mem hm
  have hlen := hf.len
  by_cases hlt : i < h0.length
  · obtain ⟨new, rfl⟩ := hf.ext
    rw [List.getElem?_append_left hlt] at hi
    have := hc c (List.mem_of_getElem? hi) p hp a ha
    omega
  · rcases hf.cells i c (by omega) hi p hp with ⟨a', h1, _, h3⟩ | h
    · rw [ha] at h1; cases h1; exact h3
    · have := hA p h a ha; omega

theorem Q.valid {A : Ptr → Prop} {h0 h : Heap} (hA : ∀ p, A p → Valid h0.length p) (hf : Fresh A h0 h) {p : Ptr} (hq : Q A h0.length h.length p) :
    Valid h.length p := by
  intro a ha
  have := hf.len
  rcases hq with ⟨a', h1, _, h3⟩ | h
  · rw [ha] at h1; cases h1; exact h3
  · have := hA p h a ha; omega

/-! ## A run in memory and one on trees -/

variable {A : Ptr → Prop} {h0 : Heap}

/-- The run from `h` ends as `y` does, if the stack is large enough. -/
def Sim (A : Ptr → Prop) (h0 : Heap) {α β : Type} (h : Heap) (x : M α) (y : Except SpecErr β) (P : Heap → α → β → Prop) : Prop :=
  match x h with
  | .ok a h' => Fresh A h0 h' ∧ (∃ new, h' = h ++ new) ∧ ∃ t, y = .ok t ∧ P h' a t
  | .err e => y = .error e
  | .overflow => True

theorem Sim.ret {α β : Type} {h : Heap} {a : α} {t : β} {P : Heap → α → β → Prop} (hf : Fresh A h0 h) (hp : P h a t) : Sim A h0 h (ret a) (.ok t) P :=
  ⟨hf, ⟨[], by simp⟩, t, rfl, hp⟩

theorem Sim.bind {α β γ δ : Type} {h : Heap} {x : M α} {y : Except SpecErr β} {P : Heap → α → β → Prop} {f : α → M γ} {g : β → Except SpecErr δ}
    {R : Heap → γ → δ → Prop} (hx : Sim A h0 h x y P)
    (hfg : ∀ a h' t, Fresh A h0 h' → (∃ new, h' = h ++ new) → P h' a t → Sim A h0 h' (f a) (g t) R) : Sim A h0 h (andThen x f) (y.bind g) R := by
  simp only [Sim, andThen] at hx ⊢
  cases hxh : x h with
  | overflow => trivial
  | err e => rw [hxh] at hx; simp only at hx ⊢; rw [hx]; rfl
  | ok a h' =>
    rw [hxh] at hx
    obtain ⟨hf, ⟨new, rfl⟩, t, rfl, hp⟩ := hx
    have := hfg a _ t hf ⟨new, rfl⟩ hp
    simp only [Sim] at this
    simp only [Except.bind]
    split
    · rename_i h2 he; rw [he] at this
      obtain ⟨h3, ⟨new', rfl⟩, h4⟩ := this
      exact ⟨h3, ⟨new ++ new', by simp⟩, h4⟩
    · rename_i he; rw [he] at this; exact this
    · trivial

/-- What holds of a result holds of it later. -/
def Mono (A : Ptr → Prop) (h0 : Heap) {α β : Type} (P : Heap → α → β → Prop) : Prop :=
  ∀ h new a t, Fresh A h0 h → P h a t → P (h ++ new) a t

theorem collectM_cons {α β ε : Type} {f : α → Except ε β} {a : α} {l : List α} :
    collectM f (a :: l) = (f a).bind fun y => (collectM f l).bind fun ys => .ok (y :: ys) := by
  simp only [collectM]
  cases f a with
  | error e => rfl
  | ok y => simp only [Except.bind]; cases collectM f l <;> rfl

theorem Sim.loop {α α' β β' : Type} {f : α → M β} {g : α' → Except SpecErr β'} {tr : α → α'} {P : Heap → β → β' → Prop} (hm : Mono A h0 P) :
    ∀ (l : List α) (h : Heap), Fresh A h0 h → (∀ x ∈ l, ∀ h, Fresh A h0 h → Sim A h0 h (f x) (g (tr x)) P) →
      Sim A h0 h (loop f l) (collectM g (l.map tr)) fun h ys ts => List.Forall₂ (P h) ys ts
  | [], h, hf, _ => Sim.ret hf .nil
  | x :: l, h, hf, hl => by
    simp only [SpecHeap.loop, List.map_cons, collectM_cons]
    refine Sim.bind (hl x (by simp) h hf) fun a h' t hf' _ hp => ?_
    refine Sim.bind (Sim.loop hm l h' hf' fun y hy => hl y (by simp [hy])) fun as h'' ts hf'' hext hps => ?_
    obtain ⟨new, rfl⟩ := hext
    exact Sim.ret hf'' (.cons (hm _ _ _ _ hf' hp) hps)

section steps
variable (hc : Closed h0) (hA : ∀ p, A p → Valid h0.length p) {n : Nat}

/-- A pointer and the struct that it stands for. -/
def PP (A : Ptr → Prop) (h0 : Heap) (n : Nat) (h : Heap) (p : Ptr) (t : Struct) : Prop := Q A h0.length h.length p ∧ readS h n p = t

def PV (A : Ptr → Prop) (h0 : Heap) (n : Nat) (h : Heap) (r : RVal) (t : Value) : Prop :=
  (∀ p ∈ r.pointers, Q A h0.length h.length p) ∧ readV h n r = t

include hc hA in
theorem PP_mono : Mono A h0 (PP A h0 n) := by
  intro h new p t hf ⟨hq, hr⟩
  exact ⟨hq.mono (by simp), by rw [readS_append (hf.closed hc hA) (hq.valid hA hf), hr]⟩

include hc hA in
theorem PV_mono : Mono A h0 (PV A h0 n) := by
  intro h new r t hf ⟨hq, hr⟩
  refine ⟨fun p hp => (hq p hp).mono (by simp), ?_⟩
  rw [← hr]
  exact view_congr fun p hp => readS_append (hf.closed hc hA) ((hq p hp).valid hA hf)

theorem key_mono {α β : Type} {P : Heap → α → β → Prop} (hm : Mono A h0 P) :
    Mono A h0 (fun h (x : Bytes × α) (y : Bytes × β) => x.1 = y.1 ∧ P h x.2 y.2) :=
  fun h new _ _ hf hp => ⟨hp.1, hm h new _ _ hf hp.2⟩

variable {maps : Maps} {nv : MVal → M RVal} {nt : SVal → Except SpecErr Value} {tr : MVal → SVal}

include hc hA in
theorem sim_alloc {name : Bytes} {h : Heap} (hf : Fresh A h0 h) {fs : Option (List (Bytes × RVal))} {ts : Option (List (Bytes × Value))}
    (h1 : ∀ e ∈ fs.getD [], ∀ p ∈ e.2.pointers, Q A h0.length h.length p)
    (h2 : fs.map (fun l => l.map fun e => (e.1, readV h n e.2)) = ts) :
    Sim A h0 h (alloc ⟨name, fs⟩) (.ok (.mk name ts)) (PP A h0 (n + 1)) := by
  have hfr : Fresh A h0 (h ++ [⟨name, fs⟩]) := by
    obtain ⟨new, hnew⟩ := hf.ext
    refine ⟨⟨new ++ [⟨name, fs⟩], by rw [hnew]; simp⟩, fun i c hi hcell p hp => ?_⟩
    by_cases hlt : i < h.length
    · rw [List.getElem?_append_left hlt] at hcell
      exact (hf.cells i c hi hcell p hp).mono (by simp)
    · rw [List.getElem?_append_right (by omega)] at hcell
      have : c = ⟨name, fs⟩ := by
        rcases hk : i - h.length with _ | k <;> rw [hk] at hcell <;> simp at hcell
        exact hcell.symm
      subst this
      simp only [Cell.pointers, List.mem_flatMap] at hp
      obtain ⟨e, he, hp⟩ := hp
      exact (h1 e he p hp).mono (by simp)
  refine ⟨hfr, ⟨_, rfl⟩, _, rfl, Or.inl ⟨_, rfl, hf.len, by simp⟩, ?_⟩
  simp only [readS, Option.bind_some]
  rw [List.getElem?_append_right (by omega), Nat.sub_self]
  simp only [List.getElem?_cons_zero]
  congr 1
  rw [← h2]
  cases fs with
  | none => rfl
  | some l =>
    simp only [Option.map_some]
    congr 1
    refine List.map_congr_left fun e he => ?_
    congr 1
    exact view_congr fun p hp => readS_append (hf.closed hc hA) ((h1 e he p hp).valid hA hf)

theorem fieldEntry_bind {e : Bytes × SVal} : Spec.fieldEntry nt e =
    if utf8Valid e.1 then (nt e.2).bind fun v => .ok (e.1, v) else .error .badUtf8 := by
  simp only [Spec.fieldEntry]; split
  · cases nt e.2 <;> rfl
  · rfl

theorem newStruct_bind {name : Bytes} {m : List (Bytes × SVal)} : Spec.newStruct nt name (some m) =
    (collectM (Spec.fieldEntry nt) m).bind fun fs => .ok (.mk name (some fs)) := by
  simp only [Spec.newStruct]; cases collectM (Spec.fieldEntry nt) m <;> rfl

include hc hA in
theorem sim_single {p : Pair} {h : Heap} (hf : Fresh A h0 h)
    (hnv : ∀ a ∈ p.maps, ∀ e ∈ maps a, ∀ h, Fresh A h0 h → Sim A h0 h (nv e.2) (nt (tr e.2)) (PV A h0 n)) :
    Sim A h0 h (newSingle maps nv p) (Spec.newSingleStruct nt (p.view maps tr)) (PP A h0 (n + 1)) := by
  obtain ⟨name, body⟩ := p
  cases name with
  | none => cases body <;> simp [newSingle, Pair.view, Spec.newSingleStruct, Sim, fail]
  | some name =>
    cases body with
    | nil =>
      simp only [newSingle, Pair.view, Spec.newSingleStruct, newStruct, Spec.newStruct]
      exact sim_alloc hc hA hf (by simp) rfl
    | other => simp [newSingle, Pair.view, Spec.newSingleStruct, Sim, fail]
    | hash a =>
      simp only [newSingle, Pair.view, Spec.newSingleStruct, newStruct, newStruct_bind]
      refine Sim.bind (Sim.loop (key_mono (PV_mono hc hA (n := n))) (maps a) h hf fun e he h hf => ?_) fun fs h' ts hf' _ hp => ?_
      · simp only [field, fieldEntry_bind]
        split
        · exact Sim.bind (hnv a (by simp [Pair.maps]) e he h hf) fun r h' t hf' _ hp => Sim.ret hf' ⟨rfl, hp⟩
        · rfl
      · refine sim_alloc hc hA hf' ?_ ?_
        · intro e he q hq
          obtain ⟨t, _, _, ht⟩ : ∃ t ∈ ts, e.1 = t.1 ∧ PV A h0 n h' e.2 t.2 := by
            clear hf'
            induction hp with
            | nil => cases he
            | cons hx _ ih =>
              rcases List.mem_cons.1 he with rfl | he
              · exact ⟨_, by simp, hx⟩
              · obtain ⟨t, h1, h2⟩ := ih he; exact ⟨t, by simp [h1], h2⟩
          exact ht.1 q hq
        · simp only [Option.map_some]
          congr 1
          clear hf'
          induction hp with
          | nil => rfl
          | cons hx _ ih =>
            simp only [List.map_cons, ih]
            rw [hx.1, hx.2.2]

theorem mapEntry_bind {e : Bytes × SPair} : Spec.mapEntry nt e = (Spec.newSingleStruct nt e.2).bind fun s => .ok (e.1, s) := by
  simp only [Spec.mapEntry]; cases Spec.newSingleStruct nt e.2 <;> rfl

include hc hA in
theorem sim_map {m : List (Bytes × Pair)} {h : Heap} (hf : Fresh A h0 h)
    (hnv : ∀ u ∈ m, ∀ a ∈ u.2.maps, ∀ e ∈ maps a, ∀ h, Fresh A h0 h → Sim A h0 h (nv e.2) (nt (tr e.2)) (PV A h0 n)) :
    Sim A h0 h (loop (entry maps nv) m) (Spec.newMapStruct nt (m.map fun e => (e.1, e.2.view maps tr)))
      fun h ys ts => List.Forall₂ (fun (x : Bytes × Ptr) (y : Bytes × Struct) => x.1 = y.1 ∧ PP A h0 (n + 1) h x.2 y.2) ys ts := by
  simp only [Spec.newMapStruct]
  refine Sim.loop (key_mono (PP_mono hc hA)) m h hf fun e he h hf => ?_
  simp only [entry, mapEntry_bind]
  exact Sim.bind (sim_single hc hA hf (hnv e he)) fun p h' t hf' _ hp => Sim.ret hf' ⟨rfl, hp⟩

/-- Two-label maps, entry by entry. -/
def P2 (A : Ptr → Prop) (h0 : Heap) (n : Nat) (h : Heap) (x : List (Bytes × List (Bytes × Ptr))) (y : List (Bytes × List (Bytes × Struct))) : Prop :=
  List.Forall₂ (fun x y => x.1 = y.1 ∧ List.Forall₂ (fun (x : Bytes × Ptr) (y : Bytes × Struct) => x.1 = y.1 ∧ PP A h0 n h x.2 y.2) x.2 y.2) x y

theorem set_forall2 {α β : Type} {R : α → β → Prop} {k : Bytes} {v : α} {w : β} (hv : R v w) : ∀ {x : List (Bytes × α)} {y : List (Bytes × β)},
    List.Forall₂ (fun x y => x.1 = y.1 ∧ R x.2 y.2) x y → List.Forall₂ (fun x y => x.1 = y.1 ∧ R x.2 y.2) (GoMap.set x k v) (GoMap.set y k w)
  | _, _, .nil => .cons ⟨rfl, hv⟩ .nil
  | (k1, a) :: x, (k2, c) :: y, .cons h1 h2 => by
    obtain ⟨rfl, hr⟩ := h1
    simp only [GoMap.set]
    split
    · exact .cons ⟨rfl, hv⟩ h2
    · exact .cons ⟨rfl, hr⟩ (set_forall2 hv h2)

include hc hA in
theorem P2_mono : Mono A h0 (P2 A h0 n) := by
  intro h new a t hf hp
  simp only [P2] at hp ⊢
  exact hp.imp fun x y hxy => ⟨hxy.1, hxy.2.imp fun x y hxy => ⟨hxy.1, PP_mono hc hA _ _ _ _ hf hxy.2⟩⟩

theorem newMap2_bind {acc : List (Bytes × List (Bytes × Struct))} {i : Bytes × Bytes} {u : SPair} {v : List ((Bytes × Bytes) × SPair)} :
    Spec.newMap2Struct nt acc ((i, u) :: v) = (Spec.newMapStruct nt [(i.2, u)]).bind fun ms => Spec.newMap2Struct nt (GoMap.set acc i.1 ms) v := by
  simp only [Spec.newMap2Struct]; cases Spec.newMapStruct nt [(i.2, u)] <;> rfl

include hc hA in
theorem sim_map2 : ∀ {m : List ((Bytes × Bytes) × Pair)} {h : Heap} {acc : List (Bytes × List (Bytes × Ptr))} {acc' : List (Bytes × List (Bytes × Struct))}
    (_ : Fresh A h0 h) (_ : P2 A h0 (n + 1) h acc acc')
    (_ : ∀ u ∈ m, ∀ a ∈ u.2.maps, ∀ e ∈ maps a, ∀ h, Fresh A h0 h → Sim A h0 h (nv e.2) (nt (tr e.2)) (PV A h0 n)),
    Sim A h0 h (newMap2 maps nv acc m) (Spec.newMap2Struct nt acc' (m.map fun e => (e.1, e.2.view maps tr))) (P2 A h0 (n + 1))
  | [], h, acc, acc', hf, hp, _ => Sim.ret hf hp
  | (i, u) :: m, h, acc, acc', hf, hp, hnv => by
    simp only [newMap2, List.map_cons, newMap2_bind]
    refine Sim.bind (sim_map (m := [(i.2, u)]) (n := n) (tr := tr) hc hA hf fun x hx => ?_) fun ms h' ts hf' hext hms => ?_
    · rw [List.mem_singleton.1 hx]; exact hnv (i, u) (by simp)
    · obtain ⟨new, rfl⟩ := hext
      exact sim_map2 hf' (set_forall2 hms (P2_mono hc hA _ _ _ _ hf hp)) fun x hx => hnv x (by simp [hx])

theorem plain_view (s : Bytes) : (plain s).view maps tr = .mk (.str s) .nil := rfl

theorem map_bind {α β ε : Type} {x : Except ε α} {f : α → β} : x.map f = x.bind fun a => .ok (f a) := by cases x <;> rfl

theorem PP_list {h : Heap} {l : List Ptr} {ts : List Struct} (hp : List.Forall₂ (PP A h0 n h) l ts) : PV A h0 n h (.list l) (.list ts) := by
  constructor
  · intro p hm
    simp only [RVal.pointers] at hm
    induction hp with
    | nil => cases hm
    | cons hx _ ih =>
      rcases List.mem_cons.1 hm with rfl | hm
      · exact hx.1
      · exact ih hm
  · simp only [readV, RVal.view]
    congr 1
    induction hp with
    | nil => rfl
    | cons hx _ ih => simp only [List.map_cons, ih, hx.2]

theorem PP_entries {h : Heap} {l : List (Bytes × Ptr)} {ts : List (Bytes × Struct)}
    (hp : List.Forall₂ (fun (x : Bytes × Ptr) (y : Bytes × Struct) => x.1 = y.1 ∧ PP A h0 n h x.2 y.2) l ts) :
    (∀ p ∈ l.map Prod.snd, Q A h0.length h.length p) ∧ l.map (fun e => (e.1, readS h n e.2)) = ts := by
  induction hp with
  | nil => exact ⟨fun p hp => (by cases hp), rfl⟩
  | cons hx _ ih =>
    refine ⟨fun p hm => ?_, ?_⟩
    · rcases List.mem_cons.1 hm with rfl | hm
      · exact hx.2.1
      · exact ih.1 p hm
    · simp only [List.map_cons, ih.2]; rw [hx.1, hx.2.2]

theorem PP_map {h : Heap} {l : List (Bytes × Ptr)} {ts : List (Bytes × Struct)}
    (hp : List.Forall₂ (fun (x : Bytes × Ptr) (y : Bytes × Struct) => x.1 = y.1 ∧ PP A h0 n h x.2 y.2) l ts) :
    PV A h0 n h (.map l) (.map ts) :=
  ⟨(PP_entries hp).1, by simp only [readV, RVal.view]; rw [(PP_entries hp).2]⟩

theorem PP_map2 {h : Heap} {l : List (Bytes × List (Bytes × Ptr))} {ts : List (Bytes × List (Bytes × Struct))} (hp : P2 A h0 n h l ts) :
    PV A h0 n h (.map2 l) (.map2 ts) := by
  simp only [P2] at hp
  constructor
  · intro p hm
    simp only [RVal.pointers, List.mem_flatMap] at hm
    obtain ⟨e, he, hm⟩ := hm
    induction hp with
    | nil => cases he
    | cons hx _ ih =>
      rcases List.mem_cons.1 he with rfl | he
      · exact (PP_entries hx.2).1 p hm
      · exact ih he
  · simp only [readV, RVal.view]
    congr 1
    induction hp with
    | nil => rfl
    | cons hx _ ih => simp only [List.map_cons, ih]; rw [hx.1, (PP_entries hx.2).2]

include hc hA in
/-- One call of `NewValue`. -/
theorem sim_step {v : MVal} {h : Heap} (hf : Fresh A h0 h) (hp : ∀ p ∈ v.pointers, A p)
    (hnv : ∀ v', Inside maps v' v → ∀ h, Fresh A h0 h → Sim A h0 h (nv v') (nt (tree maps h0 n v')) (PV A h0 n)) :
    Sim A h0 h (step maps nv v) (Spec.newValueStep nt (tree maps h0 (n + 1) v)) (PV A h0 (n + 1)) := by
  have hold : ∀ p, A p → PP A h0 (n + 1) h p (readS h0 (n + 1) p) := fun p hq => by
    refine ⟨Or.inr hq, ?_⟩
    obtain ⟨new, rfl⟩ := hf.ext
    exact readS_append hc (hA p hq)
  cases v with
  | bad => rfl
  | str s =>
    simp only [step, tree, Spec.newValueStep, map_bind]
    rw [← plain_view (maps := maps) (tr := tree maps h0 n)]
    exact Sim.bind (sim_single hc hA hf fun a ha => by cases ha) fun p h' t hf' _ hp => Sim.ret hf' (PP_single hp)
  | pair p =>
    simp only [step, tree, Spec.newValueStep, map_bind]
    exact Sim.bind (sim_single hc hA hf fun a ha e he => hnv _ ⟨a, ha, e, he, rfl⟩) fun p h' t hf' _ hp => Sim.ret hf' (PP_single hp)
  | strs l =>
    simp only [step, tree, Spec.newValueStep, map_bind, Spec.newListStruct]
    have e : (l.map fun u => SPair.mk (.str u) .nil) = (l.map plain).map (Pair.view maps (tree maps h0 n)) := by
      rw [List.map_map]; rfl
    rw [e]
    refine Sim.bind (Sim.loop (PP_mono hc hA (n := n + 1)) _ h hf fun x hx h hf => sim_single hc hA hf fun a ha => ?_)
      fun p h' t hf' _ hp => Sim.ret hf' (PP_list hp)
    obtain ⟨s, _, rfl⟩ := List.mem_map.1 hx
    cases ha
  | pairs l =>
    simp only [step, tree, Spec.newValueStep, map_bind, Spec.newListStruct]
    exact Sim.bind (Sim.loop (PP_mono hc hA (n := n + 1)) _ h hf fun x hx h hf => sim_single hc hA hf fun a ha e he =>
      hnv _ ⟨a, by simp only [MVal.maps, List.mem_flatMap]; exact ⟨x, hx, ha⟩, e, he, rfl⟩) fun p h' t hf' _ hp => Sim.ret hf' (PP_list hp)
  | mapStr m =>
    simp only [step, tree, Spec.newValueStep, map_bind]
    have e : (m.map fun e => (e.1, SPair.mk (.str e.2) .nil)) =
        (m.map fun e => (e.1, plain e.2)).map fun e => (e.1, e.2.view maps (tree maps h0 n)) := by rw [List.map_map]; rfl
    rw [e]
    refine Sim.bind (sim_map hc hA hf fun x hx a ha => ?_) fun p h' t hf' _ hp => Sim.ret hf' (PP_map hp)
    obtain ⟨s, _, rfl⟩ := List.mem_map.1 hx
    cases ha
  | mapPair m =>
    simp only [step, tree, Spec.newValueStep, map_bind]
    exact Sim.bind (sim_map hc hA hf fun x hx a ha e he =>
      hnv _ ⟨a, by simp only [MVal.maps, List.mem_flatMap]; exact ⟨x, hx, ha⟩, e, he, rfl⟩) fun p h' t hf' _ hp => Sim.ret hf' (PP_map hp)
  | map2Str m =>
    simp only [step, tree, Spec.newValueStep, map_bind]
    have e : (m.map fun e => (e.1, SPair.mk (.str e.2) .nil)) =
        (m.map fun e => (e.1, plain e.2)).map fun e => (e.1, e.2.view maps (tree maps h0 n)) := by rw [List.map_map]; rfl
    rw [e]
    refine Sim.bind (sim_map2 hc hA hf .nil fun x hx a ha => ?_) fun p h' t hf' _ hp => Sim.ret hf' (PP_map2 hp)
    obtain ⟨s, _, rfl⟩ := List.mem_map.1 hx
    cases ha
  | map2Pair m =>
    simp only [step, tree, Spec.newValueStep, map_bind]
    exact Sim.bind (sim_map2 hc hA hf .nil fun x hx a ha e he =>
      hnv _ ⟨a, by simp only [MVal.maps, List.mem_flatMap]; exact ⟨x, hx, ha⟩, e, he, rfl⟩) fun p h' t hf' _ hp => Sim.ret hf' (PP_map2 hp)
  | ptr p => exact Sim.ret hf (PP_single (hold p (hp p (by simp [MVal.pointers]))))
  | ptrs l =>
    refine Sim.ret hf (PP_list ?_)
    rw [List.forall₂_map_right_iff]
    exact List.forall₂_same.2 fun p hm => hold p (hp p hm)
  | mapPtr m =>
    refine Sim.ret hf (PP_map ?_)
    rw [List.forall₂_map_right_iff]
    exact List.forall₂_same.2 fun e hm => ⟨rfl, hold e.2 (hp e.2 (List.mem_map.2 ⟨e, hm, rfl⟩))⟩
  | map2Ptr m =>
    refine Sim.ret hf (PP_map2 ?_)
    simp only [P2]
    rw [List.forall₂_map_right_iff]
    refine List.forall₂_same.2 fun x hx => ⟨rfl, ?_⟩
    rw [List.forall₂_map_right_iff]
    exact List.forall₂_same.2 fun e hm => ⟨rfl, hold e.2 (hp e.2 (by
      simp only [MVal.pointers, List.mem_flatMap]; exact ⟨x, hx, List.mem_map.2 ⟨e, hm, rfl⟩⟩))⟩
where
  PP_single {n : Nat} {h : Heap} {p : Ptr} {t : Struct} (hp : PP A h0 n h p t) : PV A h0 n h (.single p) (.single t) :=
    ⟨fun q hq => by rw [List.mem_singleton.1 hq]; exact hp.1, by simp only [readV, RVal.view, hp.2]⟩

include hc hA in
theorem sim_newValue : ∀ (k n : Nat) (v : MVal) (h : Heap), k ≤ n → Fresh A h0 h → (∀ v', Reach maps v v' → ∀ p ∈ v'.pointers, A p) →
    Sim A h0 h (newValue maps k v) (Spec.newValue (tree maps h0 n v)) (PV A h0 n)
  | 0, _, _, _, _, _, _ => trivial
  | k + 1, 0, _, _, hk, _, _ => by omega
  | k + 1, n + 1, v, h, hk, hf, hp => by
    rw [Spec.newValue_eq]
    refine sim_step hc hA hf (hp v .refl) fun v' hv' h hf => sim_newValue k n v' h (by omega) hf fun v'' hr => hp v'' ?_
    induction hr with
    | refl => exact .step .refl hv'
    | step _ h2 ih => exact .step ih h2

end steps

/-! ## When a run ends -/

def NoOverflow {α : Type} (x : M α) : Prop := ∀ h, x h ≠ .overflow

def SomeOk {α : Type} (x : M α) : Prop := ∃ h a h', x h = .ok a h'

theorem NoOverflow.bind {α β : Type} {x : M α} {f : α → M β} (hx : NoOverflow x) (hf : ∀ a, NoOverflow (f a)) : NoOverflow (andThen x f) := by
  intro h
  simp only [andThen]
  cases hxh : x h with
  | ok a h' => exact hf a h'
  | err e => simp
  | overflow => exact absurd hxh (hx h)

theorem NoOverflow.ret {α : Type} (a : α) : NoOverflow (ret a) := fun _ => by simp [SpecHeap.ret]

theorem NoOverflow.fail {α : Type} (e : SpecErr) : NoOverflow (fail e : M α) := fun _ => by simp [SpecHeap.fail]

theorem NoOverflow.loop {α β : Type} {f : α → M β} : ∀ {l : List α}, (∀ x ∈ l, NoOverflow (f x)) → NoOverflow (loop f l)
  | [], _ => .ret _
  | x :: _, h => .bind (h x (by simp)) fun _ => .bind (NoOverflow.loop fun y hy => h y (by simp [hy])) fun _ => .ret _

section ends
variable {maps : Maps} {nv : MVal → M RVal}

theorem NoOverflow.single {p : Pair} (h : ∀ a ∈ p.maps, ∀ e ∈ maps a, NoOverflow (nv e.2)) : NoOverflow (newSingle maps nv p) := by
  obtain ⟨name, body⟩ := p
  cases name with
  | none => cases body <;> exact .fail _
  | some name =>
    cases body with
    | nil => exact fun h => by simp [newSingle, newStruct, alloc]
    | other => exact .fail _
    | hash a =>
      refine .bind (.loop fun e he => ?_) fun fs h => by simp [alloc]
      simp only [field]
      split
      · exact .bind (h a (by simp [Pair.maps]) e he) fun _ => .ret _
      · exact .fail _

theorem NoOverflow.map {m : List (Bytes × Pair)} (h : ∀ u ∈ m, ∀ a ∈ u.2.maps, ∀ e ∈ maps a, NoOverflow (nv e.2)) :
    NoOverflow (SpecHeap.loop (entry maps nv) m) :=
  .loop fun u hu => .bind (.single (h u hu)) fun _ => .ret _

theorem NoOverflow.map2 : ∀ {m : List ((Bytes × Bytes) × Pair)} {acc : List (Bytes × List (Bytes × Ptr))}
    (_ : ∀ u ∈ m, ∀ a ∈ u.2.maps, ∀ e ∈ maps a, NoOverflow (nv e.2)), NoOverflow (newMap2 maps nv acc m)
  | [], _, _ => .ret _
  | (i, u) :: m, acc, h => .bind (.map fun x hx => by rw [List.mem_singleton.1 hx]; exact h (i, u) (by simp))
      fun _ => NoOverflow.map2 fun x hx => h x (by simp [hx])

theorem NoOverflow.step {v : MVal} (h : ∀ v', Inside maps v' v → NoOverflow (nv v')) : NoOverflow (step maps nv v) := by
  cases v with
  | bad => exact .fail _
  | str s => exact .bind (.single (maps := maps) (nv := nv) (p := plain s) fun a ha => by cases ha) fun _ => .ret _
  | pair p => exact .bind (.single fun a ha e he => h _ ⟨a, ha, e, he, rfl⟩) fun _ => .ret _
  | strs l =>
    refine .bind (.loop fun x hx => .single fun a ha => ?_) fun _ => .ret _
    obtain ⟨s, _, rfl⟩ := List.mem_map.1 hx; cases ha
  | pairs l =>
    exact .bind (.loop fun x hx => .single fun a ha e he =>
      h _ ⟨a, by simp only [MVal.maps, List.mem_flatMap]; exact ⟨x, hx, ha⟩, e, he, rfl⟩) fun _ => .ret _
  | mapStr m =>
    refine .bind (.map fun x hx a ha => ?_) fun _ => .ret _
    obtain ⟨s, _, rfl⟩ := List.mem_map.1 hx; cases ha
  | mapPair m =>
    exact .bind (.map fun x hx a ha e he =>
      h _ ⟨a, by simp only [MVal.maps, List.mem_flatMap]; exact ⟨x, hx, ha⟩, e, he, rfl⟩) fun _ => .ret _
  | map2Str m =>
    refine .bind (.map2 fun x hx a ha => ?_) fun _ => .ret _
    obtain ⟨s, _, rfl⟩ := List.mem_map.1 hx; cases ha
  | map2Pair m =>
    exact .bind (.map2 fun x hx a ha e he =>
      h _ ⟨a, by simp only [MVal.maps, List.mem_flatMap]; exact ⟨x, hx, ha⟩, e, he, rfl⟩) fun _ => .ret _
  | ptr p => exact .ret _
  | ptrs l => exact .ret _
  | mapPtr m => exact .ret _
  | map2Ptr m => exact .ret _

/-- A bound for each of finitely many is one for all. -/
theorem bound_all {α : Type} {P : Nat → α → Prop} : ∀ (l : List α), (∀ x ∈ l, ∃ m0, ∀ m, m0 ≤ m → P m x) → ∃ m0, ∀ m, m0 ≤ m → ∀ x ∈ l, P m x
  | [], _ => ⟨0, fun _ _ _ h => by cases h⟩
  | x :: l, h => by
    obtain ⟨m1, h1⟩ := h x (by simp)
    obtain ⟨m2, h2⟩ := bound_all l fun y hy => h y (by simp [hy])
    refine ⟨max m1 m2, fun m hm y hy => ?_⟩
    rcases List.mem_cons.1 hy with rfl | hy
    · exact h1 m (by omega)
    · exact h2 m (by omega) y hy

theorem newValue_ends {v : MVal} (hv : NoCycle maps v) : ∃ m0, ∀ m, m0 ≤ m → NoOverflow (newValue maps m v) := by
  induction hv with
  | intro v _ ih =>
    obtain ⟨m0, h0⟩ := bound_all (P := fun m v' => NoOverflow (newValue maps m v')) ((v.maps.flatMap maps).map Prod.snd) fun v' hv' => by
      obtain ⟨e, he, rfl⟩ := List.mem_map.1 hv'
      obtain ⟨a, ha, he⟩ := List.mem_flatMap.1 he
      exact ih _ ⟨a, ha, e, he, rfl⟩
    refine ⟨m0 + 1, fun m hm => ?_⟩
    obtain ⟨k, rfl⟩ : ∃ k, m = k + 1 := ⟨m - 1, by omega⟩
    refine .step fun v' hv' => h0 k (by omega) v' ?_
    obtain ⟨a, ha, e, he, rfl⟩ := hv'
    exact List.mem_map.2 ⟨e, List.mem_flatMap.2 ⟨a, ha, he⟩, rfl⟩

theorem bind_ok {α β : Type} {x : M α} {f : α → M β} (h : SomeOk (andThen x f)) : SomeOk x ∧ ∃ a, SomeOk (f a) := by
  obtain ⟨h, b, h', he⟩ := h
  simp only [andThen] at he
  cases hxh : x h with
  | ok a h1 => rw [hxh] at he; exact ⟨⟨_, _, _, hxh⟩, a, _, _, _, he⟩
  | err e => rw [hxh] at he; cases he
  | overflow => rw [hxh] at he; cases he

theorem loop_ok {α β : Type} {f : α → M β} : ∀ {l : List α}, SomeOk (loop f l) → ∀ x ∈ l, SomeOk (f x)
  | [], _, _, hx => by cases hx
  | _ :: _, h, y, hy => by
    have ⟨h1, _, h2⟩ := bind_ok h
    rcases List.mem_cons.1 hy with rfl | hy
    · exact h1
    · exact loop_ok (bind_ok h2).1 y hy

theorem single_ok {p : Pair} (h : SomeOk (newSingle maps nv p)) : ∀ a ∈ p.maps, ∀ e ∈ maps a, SomeOk (nv e.2) := by
  obtain ⟨name, body⟩ := p
  intro a ha e he
  cases body with
  | nil => cases ha
  | other => cases ha
  | hash a' =>
    rw [Pair.maps, List.mem_singleton] at ha
    subst ha
    cases name with
    | none => obtain ⟨h, b, h', hx⟩ := h; cases hx
    | some name =>
      have hf := loop_ok (bind_ok h).1 e he
      simp only [field] at hf
      split at hf
      · exact (bind_ok hf).1
      · obtain ⟨h, b, h', hx⟩ := hf; cases hx

theorem map_ok {m : List (Bytes × Pair)} (h : SomeOk (loop (entry maps nv) m)) : ∀ u ∈ m, ∀ a ∈ u.2.maps, ∀ e ∈ maps a, SomeOk (nv e.2) :=
  fun u hu => single_ok (bind_ok (loop_ok h u hu)).1

theorem map2_ok : ∀ {m : List ((Bytes × Bytes) × Pair)} {acc : List (Bytes × List (Bytes × Ptr))},
    SomeOk (newMap2 maps nv acc m) → ∀ u ∈ m, ∀ a ∈ u.2.maps, ∀ e ∈ maps a, SomeOk (nv e.2)
  | [], _, _, _, hu => by cases hu
  | (i, u) :: m, acc, h, x, hx => by
    have ⟨h1, _, h2⟩ := bind_ok h
    rcases List.mem_cons.1 hx with rfl | hx
    · exact map_ok h1 (i.2, u) (by simp)
    · exact map2_ok h2 x hx

theorem step_ok {v : MVal} (h : SomeOk (step maps nv v)) : ∀ v', Inside maps v' v → SomeOk (nv v') := by
  rintro _ ⟨a, ha, e, he, rfl⟩
  cases v with
  | pair p => exact single_ok (bind_ok h).1 a ha e he
  | pairs l =>
    obtain ⟨x, hx, ha⟩ := List.mem_flatMap.1 ha
    exact single_ok (loop_ok (bind_ok h).1 x hx) a ha e he
  | mapPair m =>
    obtain ⟨x, hx, ha⟩ := List.mem_flatMap.1 ha
    exact map_ok (bind_ok h).1 x hx a ha e he
  | map2Pair m =>
    obtain ⟨x, hx, ha⟩ := List.mem_flatMap.1 ha
    exact map2_ok (bind_ok h).1 x hx a ha e he
  | _ => cases ha

theorem newValue_noCycle : ∀ (n : Nat) (v : MVal), SomeOk (newValue maps n v) → NoCycle maps v
  | 0, v, h => by obtain ⟨h, a, h', hx⟩ := h; cases hx
  | n + 1, v, h => .intro v fun v' hv' => newValue_noCycle n v' (step_ok h v' hv')

end ends

end Verif.SpecHeap
