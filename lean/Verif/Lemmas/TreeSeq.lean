import Verif.Spec.TreeSeq
import Verif.Lemmas.TreeAll
/-!
# One goroutine alone: every step keeps what the call will do
-/
set_option linter.unusedSimpArgs false
set_option linter.unusedVariables false

namespace Verif.TreeAll

abbrev H := Tree.Heap Unit
abbrev Out := Option (H × Option Nat)

/-! ## Heaps -/

theorem heap_length (s : St) : s.heap.length = s.next := by simp [St.heap]

theorem heap_get (s : St) (a : Nat) : s.heap[a]? = if a < s.next then some (s.node a).view else none := by
  unfold St.heap
  rw [List.getElem?_map]
  split
  · rename_i h
    rw [List.getElem?_range h]
    rfl
  · rename_i h
    rw [List.getElem?_eq_none (by simpa using h)]
    rfl

theorem heap_old {s : St} {a : Nat} (h : a < s.next) : s.heap[a]? = some (s.node a).view := by rw [heap_get, if_pos h]

theorem heap_same {s s' : St} (hx : s'.next = s.next) (hv : ∀ a, a < s.next → (s'.node a).view = (s.node a).view) : s'.heap = s.heap := by
  apply List.ext_getElem?
  intro a
  rw [heap_get, heap_get, hx]
  split
  · rw [hv a (by assumption)]
  · rfl

theorem heap_set (s : St) (a : Nat) (n : Node) : (s.set a n).heap = s.heap.set a n.view := by
  apply List.ext_getElem?
  intro k
  rw [heap_get, List.getElem?_set, heap_length, heap_get]
  show (if k < s.next then some (upd s.node a n k).view else none) = _
  by_cases hk : a = k
  · subst hk
    rw [upd_same, if_pos rfl]
  · rw [upd_other _ _ (Ne.symm hk), if_neg hk]

theorem heap_goto (s : St) (t : Nat) (p : PC) : (s.goto t p).heap = s.heap := rfl
theorem heap_ret (s : St) (t : Nat) (c : Call) (r : Option Nat) : (s.ret t c r).heap = s.heap := rfl

/-- `child.Up = cur`. -/
def link (h : H) (cur child : Nat) : H := h.modify child fun nd => { nd with up := some cur }
/-- `child` comes behind the children of `cur`. -/
def push (h : H) (cur child : Nat) : H := link (h.modify cur fun nd => { nd with downs := nd.downs ++ [child] }) cur child
/-- `NewTree`. -/
def fresh (h : H) (n : Bytes) : H := h ++ [⟨n, [], none, []⟩]

theorem set_eq_modify {h : H} {a : Nat} {nd nd' : Tree.Node Unit} {f : Tree.Node Unit → Tree.Node Unit} (ha : h[a]? = some nd) (hf : f nd = nd') :
    h.set a nd' = h.modify a f := by
  apply List.ext_getElem?
  intro k
  rw [List.getElem?_set, List.getElem?_modify]
  by_cases hk : a = k
  · subst hk
    have := (List.getElem?_eq_some_iff.1 ha).1
    rw [if_pos rfl, if_pos this, ha]
    simp [hf]
  · rw [if_neg hk]
    cases h[k]? <;> simp [hk]

/-! ## What the rest of a call does -/

/-- `AddNodes` or `GetNode` goes on from `cur`. -/
def Fin (c : Call) (h : H) (cur : Nat) (rest : List Bytes) : Out :=
  match c with
  | .add _ _ _ => (Tree.addNodesLoop h cur rest).map fun x => (x.1, some x.2)
  | _ => (Tree.getNodeLoop h cur rest).map fun r => (h, r)

/-- There is no child of the name. -/
def Miss (c : Call) (h : H) (cur : Nat) (n : Bytes) (rest : List Bytes) : Out :=
  match c with
  | .add _ _ _ => Fin c (push (fresh h n) cur h.length) h.length rest
  | _ => some (h, none)

/-- The answer of `grep`. -/
def Grep (c : Call) (h : H) (cur : Nat) (n : Bytes) (rest : List Bytes) : Option (Option Nat) → Out
  | none => none
  | some none => Miss c h cur n rest
  | some (some d) => Fin c h d rest

/-- The answer of an inner `FindNode`. -/
def Found (h : H) (outside : Out) : Option (Option Nat) → Out
  | none => none
  | some none => outside
  | some (some d) => some (h, some d)

def Frames (h : H) : List Frame → Out
  | [] => some (h, none)
  | f :: fs =>
    match f.names with
    | [] => Frames h fs
    | n :: ns =>
      match h[f.node]? with
      | none => none
      | some nd => Found h (Frames h fs) (Tree.findLoop h.length h (nd.downs.drop f.idx) n ns)

/-- What the rest of the call does. -/
def Fut (h : H) : PC → Out
  | .idle => none
  | .look c cur n rest => Fin c h cur (n :: rest)
  | .scan c cur n rest _ _ idx =>
    match h[cur]? with
    | none => none
    | some nd => Grep c h cur n rest (Tree.grep h (nd.downs.drop idx) n)
  | .want c cur n rest | .locked c cur n rest =>
    match c with
    | .del _ _ => (Tree.deleteNode h cur n).map fun h' => (h', none)
    | _ => Miss c h cur n rest
  | .appended c cur child _ rest => Fin c (push h cur child) child rest
  | .linked c cur child rest => Fin c (link h cur child) child rest
  | .shift _ cur j => some (h.modify cur fun nd => { nd with downs := nd.downs.eraseIdx j }, none)
  | .unlock c _ r rest =>
    match r with
    | none => some (h, none)
    | some d => Fin c h d rest
  | .enter _ d names fs => Found h (Frames h fs) (Tree.findNodeN (h.length + 1) h d names)
  | .find _ fs => Frames h fs
  | .panic _ => none

theorem addNode_eq {h : H} {cur : Nat} {nd : Tree.Node Unit} (ha : h[cur]? = some nd) (n : Bytes) :
    Tree.addNode h cur n = match Tree.grep h nd.downs n with
      | none => none
      | some (some d) => some (h, d)
      | some none => some (push (fresh h n) cur h.length, h.length) := by
  unfold Tree.addNode
  rw [ha]
  dsimp only
  cases Tree.grep h nd.downs n with
  | none => rfl
  | some r =>
    cases r with
    | some d => rfl
    | none =>
      have hlt := (List.getElem?_eq_some_iff.1 ha).1
      dsimp only [Tree.newTree]
      refine congrArg (fun x => some (x, h.length)) ?_
      unfold push link fresh
      rw [set_eq_modify (a := cur) (nd := nd) (f := fun nd => { nd with downs := nd.downs ++ [h.length] }) (by
        rw [List.getElem?_append_left hlt, ha]) rfl]
      refine set_eq_modify (nd := ⟨n, [], none, []⟩) ?_ rfl
      rw [List.getElem?_modify, List.getElem?_append_right (Nat.le_refl _), Nat.sub_self]
      have hne : cur ≠ h.length := by omega
      simp [hne]

/-- Before and after the header is read. -/
theorem look_eq {c : Call} {h : H} {cur : Nat} {nd : Tree.Node Unit} (ha : h[cur]? = some nd) (n : Bytes) (rest : List Bytes) :
    Fin c h cur (n :: rest) = Grep c h cur n rest (Tree.grep h nd.downs n) := by
  cases c with
  | add self tag names =>
    simp only [Fin, Tree.addNodesLoop]
    rw [addNode_eq ha]
    cases Tree.grep h nd.downs n with
    | none => rfl
    | some r => cases r <;> rfl
  | _ =>
    simp only [Fin, Tree.getNodeLoop]
    rw [ha]
    dsimp only
    cases Tree.grep h nd.downs n with
    | none => rfl
    | some r => cases r <;> rfl

/-! ## The bound of `findNodeN` -/

/-- Children are made after their parents. -/
def Deep (h : H) : Prop := ∀ i nd, h[i]? = some nd → ∀ d ∈ nd.downs, i < d ∧ d < h.length

theorem findLoop_fuel {h : H} {F F' : Nat} {items : List Nat} (hF : ∀ d ∈ items, ∀ ns, Tree.findNodeN F h d ns = Tree.findNodeN F' h d ns)
    (n : Bytes) (ns : List Bytes) : Tree.findLoop F h items n ns = Tree.findLoop F' h items n ns := by
  induction items with
  | nil => simp only [Tree.findLoop]
  | cons d items ih =>
    unfold Tree.findLoop
    rw [ih fun e he => hF e (List.mem_cons_of_mem _ he)]
    have hd := hF d (List.mem_cons_self ..)
    cases h[d]? with
    | none => rfl
    | some nd =>
      dsimp only
      split
      · cases ns with
        | nil => rfl
        | cons m ms => exact hd _
      · rw [hd]

theorem findNodeN_fuel {h : H} (hd : Deep h) : ∀ (F F' i : Nat), h.length < F + i + 1 → h.length < F' + i + 1 → ∀ names,
    Tree.findNodeN F h i names = Tree.findNodeN F' h i names := by
  intro F
  induction F with
  | zero =>
    intro F' i h1 _ names
    cases names with
    | nil => simp only [Tree.findNodeN]
    | cons n ns =>
      cases F' with
      | zero => rfl
      | succ F' =>
        have : h[i]? = none := List.getElem?_eq_none (by omega)
        simp only [Tree.findNodeN, this]
  | succ F ih =>
    intro F' i h1 h2 names
    cases names with
    | nil => simp only [Tree.findNodeN]
    | cons n ns =>
      cases F' with
      | zero =>
        have : h[i]? = none := List.getElem?_eq_none (by omega)
        simp only [Tree.findNodeN, this]
      | succ F' =>
        simp only [Tree.findNodeN]
        cases hi : h[i]? with
        | none => rfl
        | some nd =>
          dsimp only
          refine findLoop_fuel (fun d hm ms => ?_) n ns
          have := hd i nd hi d hm
          exact ih F' d (by omega) (by omega) ms

theorem Inv.deep {s : St} (i : Inv s) : Deep s.heap := by
  intro a nd ha d hd
  rw [heap_get] at ha
  split at ha
  · cases ha
    rw [heap_length]
    have := i.kid a _ d (List.mem_of_mem_take hd)
    exact ⟨this.1, this.2.1⟩
  · cases ha

/-- Calling `FindNode` on a node. -/
theorem enter_eq {h : H} {d : Nat} {nd : Tree.Node Unit} (hd : h[d]? = some nd) (names : List Bytes) (arr len : Nat) (fs : List Frame) :
    Found h (Frames h fs) (Tree.findNodeN (h.length + 1) h d names) = Frames h (⟨d, arr, len, 0, names⟩ :: fs) := by
  cases names with
  | nil => simp only [Tree.findNodeN, Frames]; rfl
  | cons n ns => simp only [Tree.findNodeN, Frames, hd, List.drop_zero]

/-! ## Steps -/

/-- After a step: the call goes on and will do `X`, or it has returned and `X` is what it did. -/
def Goes (s : St) (t : Nat) (c : Call) (log : List (Call × Option Nat)) (X : Out) : Prop :=
  (s.log t = log ∧ (s.pc t).call = some c ∧ Fut s.heap (s.pc t) = X) ∨ (s.pc t = .idle ∧ ∃ r, s.log t = (c, r) :: log ∧ X = some (s.heap, r))

theorem Goes.goto {s : St} {t : Nat} {c : Call} {p : PC} {X : Out} (hc : p.call = some c) (h : Fut s.heap p = X) : Goes (s.goto t p) t c (s.log t) X := by
  refine .inl ⟨rfl, ?_, ?_⟩
  · show (upd s.pc t p t).call = _
    rw [upd_same, hc]
  · show Fut s.heap (upd s.pc t p t) = _
    rw [upd_same, h]

theorem Goes.ret {s : St} {t : Nat} {c : Call} {r : Option Nat} {X : Out} (h : X = some (s.heap, r)) : Goes (s.ret t c r) t c (s.log t) X :=
  .inr ⟨upd_same .., r, upd_same .., h⟩

theorem Goes.hit {s : St} {t : Nat} {c : Call} {d : Nat} {rest : List Bytes} : Goes (s.hit t c d rest) t c (s.log t) (Fin c s.heap d rest) := by
  cases rest with
  | nil => exact .ret (by cases c <;> rfl)
  | cons n rest => exact .goto rfl rfl

theorem Goes.miss {s : St} {t : Nat} {c : Call} {cur : Nat} {n : Bytes} {rest : List Bytes} :
    Goes (s.miss t c cur n rest) t c (s.log t) (Miss c s.heap cur n rest) := by
  cases c with
  | add self tag names => exact .goto rfl rfl
  | _ => exact .ret rfl

/-- The headers that were read are the present ones. -/
def Mine (s : St) : PC → Prop
  | .scan _ cur _ _ arr len _ => arr = (s.node cur).arr ∧ len = (s.node cur).len
  | .enter _ _ _ fs | .find _ fs => ∀ f ∈ fs, f.arr = (s.node f.node).arr ∧ f.len = (s.node f.node).len
  | _ => True

theorem mine_hit {s : St} {t : Nat} {c : Call} {d : Nat} {rest : List Bytes} : Mine (s.hit t c d rest) ((s.hit t c d rest).pc t) := by
  cases rest <;> simp only [St.hit, St.ret, St.goto, upd_same] <;> exact trivial

theorem mine_miss {s : St} {t : Nat} {c : Call} {cur : Nat} {n : Bytes} {rest : List Bytes} : Mine (s.miss t c cur n rest) ((s.miss t c cur n rest).pc t) := by
  cases c <;> simp only [St.miss, St.ret, St.goto, upd_same] <;> exact trivial

theorem mine_goto {s : St} {t : Nat} {p : PC} (h : Mine s p) : Mine (s.goto t p) ((s.goto t p).pc t) := by
  show Mine (s.goto t p) (upd s.pc t p t)
  rw [upd_same]
  cases p <;> exact h

theorem mine_ret {s : St} {t : Nat} {c : Call} {r : Option Nat} : Mine (s.ret t c r) ((s.ret t c r).pc t) := by
  show Mine _ (upd s.pc t .idle t)
  rw [upd_same]
  trivial

theorem downs_drop {n : Node} {idx d : Nat} (hlt : idx < n.len) (hd : (n.cells n.arr)[idx]? = some d) : n.downs.drop idx = d :: n.downs.drop (idx + 1) := by
  have : n.downs[idx]? = some d := by
    unfold Node.downs
    rw [List.getElem?_take, if_pos hlt, hd]
  obtain ⟨h1, h2⟩ := List.getElem?_eq_some_iff.1 this
  rw [List.drop_eq_getElem_cons h1, h2]

theorem downs_end {n : Node} {idx : Nat} (h : ¬ idx < n.len) : n.downs.drop idx = [] := by
  apply List.drop_eq_nil_of_le
  unfold Node.downs
  rw [List.length_take]
  omega

/-- `removeFirst` takes out the cell with the index of the first child of the name. -/
theorem removeFirst_eq {s : St} {n : Bytes} : ∀ {l : List Nat}, (∀ d ∈ l, d < s.next) →
    Tree.removeFirst s.heap l n = some (match l.findIdx? fun d => decide ((s.node d).name = n) with
      | none => l
      | some j => l.eraseIdx j) := by
  intro l
  induction l with
  | nil => intro _; rfl
  | cons d l ih =>
    intro h
    unfold Tree.removeFirst
    rw [heap_old (h d (List.mem_cons_self ..)), List.findIdx?_cons]
    dsimp only
    have hv : (s.node d).view.name = (s.node d).name := rfl
    rw [hv]
    by_cases hn : (s.node d).name = n
    · simp [hn]
    · rw [if_neg hn, ih fun e he => h e (List.mem_cons_of_mem _ he)]
      dsimp only
      cases l.findIdx? fun d => decide ((s.node d).name = n) <;> simp [hn]

theorem erase_shift {l : List Nat} {j v : Nat} (h : l[j + 1]? = some v) : (l.set j v).eraseIdx (j + 1) = l.eraseIdx j := by
  induction l generalizing j with
  | nil => rfl
  | cons x l ih =>
    cases j with
    | zero =>
      cases l with
      | nil => cases h
      | cons y l => cases h; rfl
    | succ j => simpa using ih h

theorem take_erase {l : List Nat} : ∀ {m j : Nat}, j + 1 = m → (l.take m).eraseIdx j = l.take (m - 1) := by
  intro m j h
  subst h
  induction l generalizing j with
  | nil => simp
  | cons x l ih =>
    cases j with
    | zero => simp
    | succ j => simpa using ih (j := j)

/-- **Every step of a goroutine keeps what its call will do.** -/
theorem step_goes {s s' : St} (i : Inv s) {t : Nat} {c k : Call} {f : Bool} (hc : (s.pc t).call = some c) (hm : Mine s (s.pc t))
    (h : s.step t k f = some s') : Goes s' t c (s.log t) (Fut s.heap (s.pc t)) ∧ Mine s' (s'.pc t) := by
  have hp := i.pcs t
  unfold St.step at h
  cases hpc : s.pc t with
  | idle => rw [hpc] at hc; cases hc
  | look c' cur n rest =>
    rw [hpc] at h hp hc
    cases hc
    cases h
    refine ⟨.goto rfl ?_, mine_goto ⟨rfl, rfl⟩⟩
    have ho := heap_old hp.old
    simp only [Fut]
    rw [ho, look_eq ho]
    rfl
  | scan c' cur n rest arr len idx =>
    rw [hpc] at h hp hc hm
    cases hc
    obtain ⟨rfl, rfl⟩ := hm
    dsimp only at h
    have ho := heap_old hp.2.1
    have hF : Fut s.heap (.scan c cur n rest (s.node cur).arr (s.node cur).len idx) =
        Grep c s.heap cur n rest (Tree.grep s.heap ((s.node cur).downs.drop idx) n) := by simp only [Fut]; rw [ho]; rfl
    rw [hF]
    split at h
    · rename_i hlt
      cases hd : ((s.node cur).cells (s.node cur).arr)[idx]? with
      | none =>
        rw [List.getElem?_eq_none_iff] at hd
        exact absurd (Nat.lt_of_lt_of_le hlt hp.2.2.2) (Nat.not_lt.2 hd)
      | some d =>
        rw [hd] at h
        dsimp only at h
        have hkid := i.kid _ _ _ (getElem?_lt hd)
        rw [downs_drop hlt hd]
        have hg : ∀ l, Tree.grep s.heap (d :: l) n = if (s.node d).name = n then some (some d) else Tree.grep s.heap l n := by
          intro l
          conv => lhs; unfold Tree.grep
          rw [heap_old hkid.2.1]
          rfl
        rw [hg]
        split at h
        · rename_i hn
          cases h
          rw [if_pos hn]
          exact ⟨.hit, mine_hit⟩
        · rename_i hn
          cases h
          rw [if_neg hn]
          refine ⟨.goto rfl ?_, mine_goto ⟨rfl, rfl⟩⟩
          simp only [Fut]
          rw [ho]
          rfl
    · rename_i hlt
      cases h
      rw [downs_end hlt]
      exact ⟨.miss, mine_miss⟩
  | want c' cur n rest =>
    rw [hpc] at h hc
    cases hc
    dsimp only at h
    cases hl : (s.node cur).lock with
    | some u => rw [hl] at h; cases h
    | none =>
      rw [hl] at h
      cases h
      have hh : (s.set cur { s.node cur with lock := some t }).heap = s.heap := by
        refine heap_same rfl fun a _ => ?_
        show (upd s.node cur _ a).view = _
        by_cases ha : a = cur
        · subst ha; rw [upd_same]; rfl
        · rw [upd_other _ _ ha]
      exact ⟨.goto rfl (by rw [hh]; cases c <;> rfl), mine_goto trivial⟩
  | locked c' cur n rest =>
    rw [hpc] at h hp hc
    cases hc
    cases c with
    | del self name =>
      dsimp only at h
      have hcur : cur < s.next := by
        rcases hp with hp | ⟨_, _, hp⟩
        · exact hp.old
        · exact hp
      have hdel : Tree.deleteNode s.heap cur n = some (s.heap.modify cur fun nd => { nd with downs := match s.index cur n with
          | none => nd.downs
          | some j => nd.downs.eraseIdx j }) := by
        unfold Tree.deleteNode
        rw [heap_old hcur]
        dsimp only
        have hr := removeFirst_eq (s := s) (n := n) (l := (s.node cur).view.downs) fun d hd => (i.kid cur _ d (List.mem_of_mem_take hd)).2.1
        rw [hr]
        dsimp only
        refine congrArg some (set_eq_modify (heap_old hcur) ?_)
        unfold St.index
        cases hj : (s.node cur).downs.findIdx? fun d => decide ((s.node d).name = n) <;> simp [Node.view, hj]
      simp only [Fut, hdel, Option.map_some]
      cases hj : s.index cur n with
      | none =>
        rw [hj] at h
        cases h
        refine ⟨.goto rfl ?_, mine_goto trivial⟩
        simp only [Fut]
        refine congrArg (fun x => some (x, none)) (List.ext_getElem? fun a => ?_)
        rw [List.getElem?_modify]
        cases s.heap[a]? <;> simp
      | some j =>
        rw [hj] at h
        cases h
        exact ⟨.goto rfl rfl, mine_goto trivial⟩
    | add self tag names =>
      cases h
      have hcur : cur < s.next := by
        rcases hp with hp | ⟨hp, _⟩
        · exact hp.old
        · cases hp
      have hh : (s.append t (.add self tag names) cur n rest f).heap = fresh s.heap n := by
        apply List.ext_getElem?
        intro a
        have hne : s.next ≠ cur := by omega
        rw [heap_get]
        unfold fresh
        show (if a < s.next + 1 then some (upd (upd s.node s.next (newNode n)) cur ((s.node cur).append s.next f) a).view else none) = _
        rcases Nat.lt_trichotomy a s.next with hlt | rfl | hgt
        · rw [if_pos (by omega), List.getElem?_append_left (by rw [heap_length]; exact hlt), heap_old hlt]
          by_cases ha : a = cur
          · subst ha
            rw [upd_same]
            unfold Node.view
            rw [append_name, append_up, downs_append (i.len _) (i.arr _)]
          · rw [upd_other _ _ ha, upd_other _ _ (by omega)]
        · rw [if_pos (by omega), List.getElem?_append_right (by rw [heap_length]; exact Nat.le_refl _), heap_length, Nat.sub_self, upd_other _ _ hne, upd_same]
          rfl
        · rw [if_neg (by omega), List.getElem?_eq_none (by simp [heap_length]; omega)]
      refine ⟨.inl ⟨rfl, ?_, ?_⟩, ?_⟩
      · show (upd s.pc t _ t).call = _
        rw [upd_same]
        rfl
      · show Fut _ (upd s.pc t _ t) = _
        rw [upd_same, hh]
        simp only [Fut, Miss]
        rw [heap_length]
      · show Mine _ (upd s.pc t _ t)
        rw [upd_same]
        trivial
    | get self tag names => rcases hp with ⟨_, _, _, _, hp, _⟩ | ⟨hp, _⟩ <;> cases hp
    | find self names => rcases hp with ⟨_, _, _, _, hp, _⟩ | ⟨hp, _⟩ <;> cases hp
  | appended c' cur child arr rest =>
    rw [hpc] at h hp hc
    cases hc
    cases h
    obtain ⟨ha, _, _⟩ := i.app t _ _ _ _ _ hpc
    have hcur := hp.2.old
    refine ⟨.goto rfl ?_, mine_goto trivial⟩
    rw [heap_set]
    simp only [Fut, push]
    rw [set_eq_modify (f := fun nd => { nd with downs := nd.downs ++ [child] }) (heap_old hcur)]
    unfold Node.view
    dsimp only
    rw [← ha]
    rfl
  | linked c' cur child rest =>
    rw [hpc] at h hp hc
    cases hc
    cases h
    refine ⟨.goto rfl ?_, mine_goto trivial⟩
    rw [heap_set]
    simp only [Fut, link]
    refine congrArg (fun x => Fin c x child rest) (set_eq_modify (heap_old hp.1.2.1) ?_)
    rfl
  | shift c' cur j =>
    rw [hpc] at h hp hc
    cases hc
    cases h
    have hcur := hp.2
    unfold St.shift
    dsimp only
    split
    · rename_i hlt
      refine ⟨.goto rfl ?_, mine_goto trivial⟩
      rw [heap_set]
      simp only [Fut]
      refine congrArg (fun x => some (x, none)) (List.ext_getElem? fun a => ?_)
      rw [List.getElem?_modify, List.getElem?_modify, List.getElem?_set, heap_length]
      by_cases ha : cur = a
      · subst ha
        rw [if_pos rfl, if_pos hcur, heap_old hcur]
        simp only [Functor.map, Option.map_some, if_true]
        have hv : ((s.node cur).cells (s.node cur).arr)[j + 1]? = some (((s.node cur).cells (s.node cur).arr).getD (j + 1) 0) := by
          have := Nat.lt_of_lt_of_le hlt (i.len cur)
          simp [List.getD, this]
        have := erase_shift (l := (s.node cur).downs) (j := j) (v := ((s.node cur).cells (s.node cur).arr).getD (j + 1) 0) (by
          unfold Node.downs
          rw [List.getElem?_take, if_pos hlt, hv])
        unfold Node.view
        dsimp only
        rw [← this]
        unfold Node.downs
        dsimp only
        rw [upd_same, take_set]
      · rw [if_neg ha]
        cases s.heap[a]? <;> simp [ha]
    · rename_i hlt
      refine ⟨.goto rfl ?_, mine_goto trivial⟩
      rw [heap_set]
      simp only [Fut]
      refine congrArg (fun x => some (x, none)) (set_eq_modify (heap_old hcur) ?_)
      have hj : j + 1 = (s.node cur).len := by
        obtain ⟨L, hL, _⟩ := i.cont cur
        obtain ⟨A, x, B, k, _, h2, _, h4, _, h6, _⟩ := i.shifting hpc hL
        rw [List.length_append, List.length_cons] at h6
        omega
      unfold Node.view
      dsimp only
      have := take_erase (l := (s.node cur).cells (s.node cur).arr) hj
      unfold Node.downs
      dsimp only
      rw [this]
  | unlock c' cur r rest =>
    rw [hpc] at h hc
    cases hc
    have hh : (s.set cur { s.node cur with lock := none }).heap = s.heap := by
      refine heap_same rfl fun a _ => ?_
      show (upd s.node cur _ a).view = _
      by_cases ha : a = cur
      · subst ha; rw [upd_same]; rfl
      · rw [upd_other _ _ ha]
    cases r with
    | none =>
      cases h
      exact ⟨.ret (by rw [hh]; rfl), mine_ret⟩
    | some d =>
      cases h
      refine ⟨?_, mine_hit⟩
      have := Goes.hit (s := s.set cur { s.node cur with lock := none }) (t := t) (c := c) (d := d) (rest := rest)
      rw [hh] at this
      exact this
  | enter c' d names fs =>
    rw [hpc] at h hp hc hm
    cases hc
    cases h
    obtain ⟨self, names', h1, h2, ⟨pre, l, _, _, h3, _⟩, h4⟩ := hp
    refine ⟨.goto rfl ?_, mine_goto fun g hg => ?_⟩
    · simp only [Fut]
      rw [enter_eq (heap_old (h3.old h2))]
    · rcases List.mem_cons.1 hg with rfl | hg
      · exact ⟨rfl, rfl⟩
      · exact hm g hg
  | find c' fs =>
    rw [hpc] at h hp hc hm
    cases hc
    cases h
    obtain ⟨self, names, h1, h2, h3⟩ := hp
    cases fs with
    | nil => exact ⟨.ret rfl, mine_ret⟩
    | cons g fs =>
      obtain ⟨m1, m2⟩ := hm g (List.mem_cons_self ..)
      have hm' : ∀ f ∈ fs, f.arr = (s.node f.node).arr ∧ f.len = (s.node f.node).len := fun f hf => hm f (List.mem_cons_of_mem _ hf)
      obtain ⟨⟨pre, l, _, hne, _⟩, hold, _, hlen⟩ := h3 g (List.mem_cons_self ..)
      cases hnames : g.names with
      | nil => exact absurd hnames hne
      | cons n ns =>
      have hF : Fut s.heap (.find c (g :: fs)) =
          Found s.heap (Frames s.heap fs) (Tree.findLoop s.heap.length s.heap ((s.node g.node).downs.drop g.idx) n ns) := by
        simp only [Fut, Frames, hnames]
        rw [heap_old hold]
        rfl
      rw [hF]
      unfold St.findStep
      dsimp only
      split
      · rename_i hlt
        cases hd : ((s.node g.node).cells g.arr)[g.idx]? with
        | none =>
          rw [List.getElem?_eq_none_iff] at hd
          exact absurd (Nat.lt_of_lt_of_le hlt hlen) (Nat.not_lt.2 hd)
        | some d =>
          have hkid := i.kid _ _ _ (getElem?_lt hd)
          rw [m1] at hd
          rw [m2] at hlt
          rw [downs_drop hlt hd, hnames]
          dsimp only
          have hfuel : ∀ ms, Tree.findNodeN s.heap.length s.heap d ms = Tree.findNodeN (s.heap.length + 1) s.heap d ms := fun ms => by
            have := hkid.1
            exact findNodeN_fuel i.deep _ _ _ (by omega) (by omega) ms
          conv => enter [1, 5, 3]; unfold Tree.findLoop
          rw [heap_old hkid.2.1]
          dsimp only
          have hv : (s.node d).view.name = (s.node d).name := rfl
          rw [hv]
          split
          · rename_i hn
            cases ns with
            | nil => exact ⟨.ret rfl, mine_ret⟩
            | cons m ms =>
              rw [if_neg (by simp)]
              refine ⟨.goto rfl ?_, mine_goto hm'⟩
              simp only [Fut]
              rw [hfuel]
          · rename_i hn
            refine ⟨.goto rfl ?_, mine_goto fun f hf => ?_⟩
            · simp only [Fut]
              rw [hfuel]
              cases Tree.findNodeN (s.heap.length + 1) s.heap d (n :: ns) with
              | none => rfl
              | some r =>
                cases r with
                | some x => rfl
                | none =>
                  simp only [Found, Frames]
                  rw [heap_old hold]
                  rfl
            · rcases List.mem_cons.1 hf with rfl | hf
              · exact ⟨m1, m2⟩
              · exact hm' f hf
      · rename_i hlt
        rw [m2] at hlt
        rw [downs_end hlt]
        refine ⟨.goto rfl ?_, mine_goto hm'⟩
        simp only [Fut, Tree.findLoop, Found]
  | panic c => rw [hpc] at hp; exact hp.elim

/-- The first step of a call. -/
theorem begin_goes {s s' : St} (i : Inv s) {t : Nat} {c : Call} {f : Bool} (hidle : s.pc t = .idle) (h : s.step t c f = some s') :
    Goes s' t c (s.log t) (c.seq s.heap) ∧ Mine s' (s'.pc t) := by
  unfold St.step at h
  rw [hidle] at h
  dsimp only at h
  split at h
  · cases h
    cases c with
    | add self tag names => exact ⟨.goto rfl rfl, mine_goto trivial⟩
    | get self tag names =>
      unfold St.begin
      dsimp only
      split
      · rename_i ht
        exact ⟨.ret (by simp only [Call.seq, Tree.getNode, if_pos ht, Option.map_some]), mine_ret⟩
      · rename_i ht
        refine ⟨.goto rfl ?_, mine_goto trivial⟩
        simp only [Call.seq, Tree.getNode, if_neg ht, Fut, Fin, Tree.getNodeLoop]
    | find self names =>
      unfold St.begin
      dsimp only
      split
      · rename_i hn
        subst hn
        exact ⟨.ret (by simp only [Call.seq, Tree.findNode, Tree.findNodeN, Option.map_some]), mine_ret⟩
      · refine ⟨.goto rfl ?_, mine_goto fun f hf => by cases hf⟩
        simp only [Call.seq, Tree.findNode, Fut, Frames]
        cases Tree.findNodeN (s.heap.length + 1) s.heap self names with
        | none => rfl
        | some r => cases r <;> rfl
    | del self name => exact ⟨.goto rfl rfl, mine_goto trivial⟩
  · cases h

/-- Where a goroutine is that runs alone since the tree was `h0` and its log was `log0`. -/
def Alone (h0 : H) (log0 : List (Call × Option Nat)) (t : Nat) (s : St) : Prop :=
  ∃ done hd, s.log t = done ++ log0 ∧ History h0 done hd ∧ Mine s (s.pc t) ∧
    ((s.pc t = .idle ∧ s.heap = hd) ∨ ∃ c, (s.pc t).call = some c ∧ c.seq hd = Fut s.heap (s.pc t))

theorem Alone.step {h0 : H} {log0 : List (Call × Option Nat)} {t : Nat} {s s' : St} (i : Inv s) (ha : Alone h0 log0 t s) {k : Call} {f : Bool}
    (h : s.step t k f = some s') : Alone h0 log0 t s' := by
  obtain ⟨done, hd, h1, h2, h3, h4⟩ := ha
  have go : ∀ {c : Call}, Goes s' t c (s.log t) (c.seq hd) ∧ Mine s' (s'.pc t) → Alone h0 log0 t s' := by
    rintro c ⟨⟨g1, g2, g3⟩ | ⟨g1, r, g2, g3⟩, hm⟩
    · exact ⟨done, hd, g1.trans h1, h2, hm, .inr ⟨c, g2, g3.symm⟩⟩
    · exact ⟨(c, r) :: done, s'.heap, by rw [g2, h1]; rfl, .call h2 g3, hm, .inl ⟨g1, rfl⟩⟩
  rcases h4 with ⟨h4, rfl⟩ | ⟨c, h4, h5⟩
  · exact go (begin_goes i h4 h)
  · refine go (c := c) ?_
    rw [h5]
    exact step_goes i h4 h3 h

theorem Alone.run {h0 : H} {log0 : List (Call × Option Nat)} {t : Nat} {l : List (Nat × Call × Bool)} (hl : ∀ e ∈ l, e.1 = t) :
    ∀ {s s' : St}, Inv s → Alone h0 log0 t s → s.run l = some s' → Alone h0 log0 t s' := by
  induction l with
  | nil => intro s s' _ ha h; cases h; exact ha
  | cons e l ih =>
    intro s s' i ha h
    obtain ⟨s1, q1, q2⟩ := run_cons h
    rw [hl e (List.mem_cons_self ..)] at q1
    exact ih (fun e he => hl e (List.mem_cons_of_mem _ he)) (i.step q1).1 (ha.step i q1) q2

end Verif.TreeAll
