import Verif.Mpo.Alg
/-
Model of the state machine of the infinite-MPO generator.
Source: /repo/include/qlmps/one_dim_tn/mpo/mpogen/ifsm.h, fsm.h:20-79
-/
namespace Verif.Mpo

/-- `struct FSMNode` (fsm.h:20-78). -/
structure INode where
  site : Nat
  stat : Int
deriving DecidableEq, Repr

/-- `FSMNode::Site()` (fsm.h:69-71), which returns the state index converted to `size_t`: the value as a number if it
is non-negative, otherwise a huge number (`none`). -/
def INode.siteFn (n : INode) : Option Nat := if 0 ≤ n.stat then some n.stat.toNat else none

/-- `FSMNNLinks` (ifsm.h:16): node ↦ (operator ↦ next node), association lists in insertion order. `std::map` lookup
compares `OpRepr`s by `<`, i.e. literally. -/
abbrev Links := List (INode × List (OpRepr × INode))

/-- Outcomes of a call: `ok`, out-of-bounds access (undefined behaviour), exception of `std::map::at`, failed
assertion, `exit(1)`. -/
inductive IRes where
  | ok
  | oob
  | outOfRange
  | assertFail
  | exitFail
deriving DecidableEq, Repr

/-- `class iFSM` (ifsm.h:24-78), without the stored paths. -/
structure IFsm where
  n : Nat
  mid : List Nat
  links : List Links

/-- Constructor (ifsm.h:26-45). -/
def IFsm.new (ids : List OpRepr) : IFsm :=
  { n := ids.length, mid := List.replicate ids.length 0,
    links := ids.zipIdx.map (fun (o, s) => [(⟨s, 0⟩, [(o, ⟨s + 1, 0⟩)]), (⟨s, -1⟩, [(o, ⟨s + 1, -1⟩)])]) }

/-- `fsm_nn_links_set_[s].at(node).insert({op, to})` (ifsm.h:128,136,147); insertion keeps an existing entry. -/
def IFsm.insert (f : IFsm) (s : Nat) (node : INode) (op : OpRepr) (to : INode) : IFsm :=
  { f with links := f.links.modify s (fun ls => ls.map (fun e =>
      if e.1 = node then (e.1, if e.2.any (fun x => x.1 == op) then e.2 else e.2 ++ [(op, to)]) else e)) }

/-- Loop over the first operators in `AddPath` (ifsm.h:104-138): current node, whether a new path was opened. On an
abnormal outcome the state reached so far is returned with it, since a caller may catch the exception. -/
def IFsm.walk (f : IFsm) (node : INode) (opened : Bool) : List OpRepr → IFsm × Except IRes (INode × Bool)
  | [] => (f, .ok (node, opened))
  | op :: ops =>
    match node.siteFn with
    | none => (f, .error .oob)
    | some s =>
      match f.links[s]? with
      | none => (f, .error .oob)
      | some ls =>
        let t := (s + 1) % f.n
        match ls.lookup node with
        | none => (if opened then { f with mid := f.mid.modify t (· + 1) } else f, .error .outOfRange)
        | some es =>
          match if opened then none else (es.lookup op).filter (fun nx => nx.stat ≠ -1) with
          | some nx => f.walk nx false ops
          | none =>
            let f := { f with mid := f.mid.modify t (· + 1) }
            let nx : INode := ⟨t, (f.mid.getD t 0 : Nat)⟩
            (f.insert s node op nx).walk nx true ops

/-- `iFSM::AddPath(head_site, ntrvl_ops)` (ifsm.h:80-154). -/
def IFsm.addPath (f : IFsm) (head : Nat) (ops : List OpRepr) : IFsm × IRes :=
  if ops.length ≤ 1 then (f, .assertFail)
  else match f.walk ⟨head % f.n, 0⟩ false ops.dropLast with
    | (f, .error e) => (f, e)
    | (f, .ok (node, opened)) =>
      let tail := (ops.length + head) % f.n
      match node.siteFn with
      | none => (f, .assertFail)
      | some s =>
        if tail ≠ (s + 1) % f.n then (f, .assertFail)
        else if opened then
          match f.links[(tail + f.n - 1) % f.n]? with
          | none => (f, .oob)
          | some ls =>
            match ls.lookup node with
            | none => (f, .outOfRange)
            | some _ => (f.insert ((tail + f.n - 1) % f.n) node (ops.getLastD []) ⟨tail, -1⟩, .ok)
        else (f, .exitFail)

/-! ### No call succeeds -/

/-- The keys of the link maps are those of the constructor, links from ready nodes never lead to site 0 in the ready state, and the counters
fit. -/
structure IFsm.Inv (f : IFsm) : Prop where
  mid : f.mid.length = f.n
  keys : ∀ (s : Nat) (ls : Links), f.links[s]? = some ls → ∀ e ∈ ls, e.1.site = s ∧ (e.1.stat = 0 ∨ e.1.stat = -1)
  away : ∀ (s : Nat) (ls : Links), f.links[s]? = some ls → ∀ e ∈ ls, ∀ x ∈ e.2, x.2 ≠ ⟨0, 0⟩
  opened : ∀ (s : Nat) (ls : Links), f.links[s]? = some ls → ∀ e ∈ ls, ∀ x ∈ e.2, x.2.stat = 0 → x.2.site ≠ 0
  len : f.links.length = f.n

theorem IFsm.inv_new (ids : List OpRepr) : (IFsm.new ids).Inv := by
  have key : ∀ (s : Nat) (ls : Links), (IFsm.new ids).links[s]? = some ls →
      ∃ o, ls = [(⟨s, 0⟩, [(o, ⟨s + 1, 0⟩)]), (⟨s, -1⟩, [(o, ⟨s + 1, -1⟩)])] := by
    intro s ls h
    simp only [IFsm.new, List.getElem?_map, List.getElem?_zipIdx] at h
    cases ho : ids[s]? with
    | none => simp [ho] at h
    | some o => simp [ho] at h; exact ⟨o, h.symm⟩
  refine ⟨by simp [IFsm.new], ?_, ?_, ?_, by simp [IFsm.new]⟩
  · intro s ls h e he
    obtain ⟨o, rfl⟩ := key s ls h
    simp at he
    rcases he with rfl | rfl <;> simp
  · intro s ls h e he x hx
    obtain ⟨o, rfl⟩ := key s ls h
    simp at he
    rcases he with rfl | rfl <;> simp at hx <;> subst hx <;> simp
  · intro s ls h e he x hx
    obtain ⟨o, rfl⟩ := key s ls h
    simp at he
    rcases he with rfl | rfl <;> simp at hx <;> subst hx <;> simp

theorem lookup_mem {α β : Type} [BEq α] [LawfulBEq α] {l : List (α × β)} {a : α} {b : β} (h : l.lookup a = some b) :
    (a, b) ∈ l := by
  induction l with
  | nil => simp at h
  | cons x l ih =>
    rw [List.lookup_cons] at h
    split at h
    · rename_i he
      simp at h he; subst h; subst he; simp
    · exact List.mem_cons_of_mem _ (ih h)

theorem IFsm.inv_insert {f : IFsm} (h : f.Inv) (s : Nat) (node : INode) (op : OpRepr) (to : INode) (ht : to.stat ≠ 0) :
    (f.insert s node op to).Inv := by
  have key : ∀ (r : Nat) (ls : Links), (f.insert s node op to).links[r]? = some ls → ∃ ls0, f.links[r]? = some ls0 ∧
      ∀ e ∈ ls, ∃ e0 ∈ ls0, e.1 = e0.1 ∧ ∀ x ∈ e.2, x ∈ e0.2 ∨ x.2 = to := by
    intro r ls hr
    simp only [IFsm.insert, List.getElem?_modify] at hr
    cases h0 : f.links[r]? with
    | none => simp [h0] at hr
    | some ls0 =>
      simp only [h0, Option.map_eq_map, Option.map_some, Option.some.injEq] at hr
      refine ⟨ls0, rfl, ?_⟩
      intro e he
      by_cases hs : s = r
      · rw [if_pos hs] at hr
        subst hr
        obtain ⟨e0, he0, rfl⟩ := List.mem_map.1 he
        refine ⟨e0, he0, by split <;> rfl, ?_⟩
        intro x hx
        split at hx
        · simp only at hx
          split at hx
          · exact Or.inl hx
          · rcases List.mem_append.1 hx with h' | h'
            · exact Or.inl h'
            · simp at h'; subst h'; exact Or.inr rfl
        · exact Or.inl hx
      · rw [if_neg hs] at hr
        subst hr
        exact ⟨e, he, rfl, fun x hx => Or.inl hx⟩
  refine ⟨h.mid, ?_, ?_, ?_, by simp [IFsm.insert, h.len]⟩
  · intro r ls hr e he
    obtain ⟨ls0, h0, k⟩ := key r ls hr
    obtain ⟨e0, he0, e1, _⟩ := k e he
    rw [e1]; exact h.keys r ls0 h0 e0 he0
  · intro r ls hr e he x hx
    obtain ⟨ls0, h0, k⟩ := key r ls hr
    obtain ⟨e0, he0, _, e2⟩ := k e he
    rcases e2 x hx with h' | h'
    · exact h.away r ls0 h0 e0 he0 x h'
    · rw [h']; intro hto; rw [hto] at ht; exact ht rfl
  · intro r ls hr e he x hx hs
    obtain ⟨ls0, h0, k⟩ := key r ls hr
    obtain ⟨e0, he0, _, e2⟩ := k e he
    rcases e2 x hx with h' | h'
    · exact h.opened r ls0 h0 e0 he0 x h' hs
    · rw [h'] at hs; exact absurd hs ht

theorem IFsm.inv_mid {f : IFsm} (h : f.Inv) (t : Nat) : ({ f with mid := f.mid.modify t (· + 1) } : IFsm).Inv :=
  ⟨by simp [h.mid], h.keys, h.away, h.opened, h.len⟩

/-- A node from which the walk can make a step is the ready node of site 0. -/
theorem IFsm.step_node {f : IFsm} (h : f.Inv) {node : INode} {s : Nat} {ls : Links} {es : List (OpRepr × INode)}
    (h1 : node.siteFn = some s) (h2 : f.links[s]? = some ls) (h3 : ls.lookup node = some es) : node = ⟨0, 0⟩ := by
  have hm := lookup_mem h3
  obtain ⟨k1, k2⟩ := h.keys s ls h2 _ hm
  obtain ⟨a, b⟩ := node
  simp only [INode.siteFn] at h1 k1 k2
  split at h1
  · simp only [Option.some.injEq] at h1
    have hb : b = 0 := by omega
    have ha : a = 0 := by omega
    rw [ha, hb]
  · cases h1

/-- The walk keeps the invariant; from a node other than the ready node of site 0 it only succeeds on no operators. -/
theorem IFsm.walk_inv : ∀ (ops : List OpRepr) (f : IFsm) (node : INode) (b : Bool), f.Inv → (f.walk node b ops).1.Inv
  | [], f, node, b, h => h
  | op :: ops, f, node, b, h => by
    unfold IFsm.walk
    split
    · exact h
    · rename_i s hs
      split
      · exact h
      · rename_i ls hls
        dsimp only
        split
        · split
          · exact f.inv_mid h _
          · exact h
        · rename_i es hes
          split
          · exact IFsm.walk_inv ops f _ _ h
          · refine IFsm.walk_inv ops _ _ _ (IFsm.inv_insert (f.inv_mid h _) _ _ _ _ ?_)
            have hlt : (s + 1) % f.n < f.mid.length := by
              rw [h.mid]
              refine Nat.mod_lt _ ?_
              have : s < f.links.length := (List.getElem?_eq_some_iff.1 hls).1
              rw [h.len] at this; omega
            have hg : (f.mid.modify ((s + 1) % f.n) (· + 1)).getD ((s + 1) % f.n) 0 = f.mid[(s + 1) % f.n] + 1 := by
              rw [List.getD_eq_getElem?_getD, List.getElem?_modify, List.getElem?_eq_getElem hlt]; simp
            simp only [hg]
            omega

theorem IFsm.walk_stuck {f : IFsm} (h : f.Inv) {node : INode} (hn : node ≠ ⟨0, 0⟩) (b : Bool) (op : OpRepr) (ops : List OpRepr) :
    ∃ e, e ≠ IRes.ok ∧ (f.walk node b (op :: ops)).2 = .error e := by
  unfold IFsm.walk
  split
  · exact ⟨_, by decide, rfl⟩
  · rename_i s hs
    split
    · exact ⟨_, by decide, rfl⟩
    · rename_i ls hls
      dsimp only
      split
      · exact ⟨_, by decide, rfl⟩
      · rename_i es hes
        exact absurd (IFsm.step_node h hs hls hes) hn

theorem IFsm.insert_mid_inv {f : IFsm} (h : f.Inv) {s : Nat} {ls : Links} (hls : f.links[s]? = some ls) (node : INode) (op : OpRepr)
    (st : Nat) (hst : st = (f.mid.modify ((s + 1) % f.n) (· + 1)).getD ((s + 1) % f.n) 0) :
    (({ f with mid := f.mid.modify ((s + 1) % f.n) (· + 1) } : IFsm).insert s node op ⟨(s + 1) % f.n, (st : Int)⟩).Inv ∧ st ≠ 0 := by
  have hlt : (s + 1) % f.n < f.mid.length := by
    rw [h.mid]
    refine Nat.mod_lt _ ?_
    have : s < f.links.length := (List.getElem?_eq_some_iff.1 hls).1
    rw [h.len] at this; omega
  have hg : (f.mid.modify ((s + 1) % f.n) (· + 1)).getD ((s + 1) % f.n) 0 = f.mid[(s + 1) % f.n] + 1 := by
    rw [List.getD_eq_getElem?_getD, List.getElem?_modify, List.getElem?_eq_getElem hlt]; simp
  rw [hg] at hst
  refine ⟨IFsm.inv_insert (f.inv_mid h _) _ _ _ _ ?_, by omega⟩
  simp only; omega

/-- The walk over at least one operator never ends in the ready node of site 0, and its last node, if a new path was opened, is no key. -/
theorem IFsm.walk_end {f : IFsm} (h : f.Inv) (node : INode) (op : OpRepr) (ops : List OpRepr) {node' : INode} {b' : Bool}
    (hw : (f.walk node false (op :: ops)).2 = .ok (node', b')) : b' = true → node'.stat ≠ 0 ∧ node'.stat ≠ -1 := by
  unfold IFsm.walk at hw
  split at hw
  · cases hw
  · rename_i s hs
    split at hw
    · cases hw
    · rename_i ls hls
      dsimp only at hw
      split at hw
      · cases hw
      · rename_i es hes
        split at hw
        · rename_i nx hnx
          simp only [Bool.false_eq_true, if_false] at hnx
          have hlk : es.lookup op = some nx := by
            cases hl : es.lookup op with
            | none => simp [hl] at hnx
            | some y =>
              rw [hl, Option.filter_some] at hnx
              split at hnx
              · simpa using hnx
              · cases hnx
          have haway : nx ≠ ⟨0, 0⟩ := h.away s ls hls _ (lookup_mem hes) _ (lookup_mem hlk)
          cases ops with
          | nil =>
            simp only [IFsm.walk] at hw
            cases hw
            intro hb; cases hb
          | cons op2 ops =>
            obtain ⟨e, _, he⟩ := IFsm.walk_stuck h haway false op2 ops
            rw [he] at hw; cases hw
        · obtain ⟨hinv, hne⟩ := IFsm.insert_mid_inv h hls node op _ rfl
          cases ops with
          | nil =>
            simp only [IFsm.walk] at hw
            cases hw
            intro _
            refine ⟨?_, ?_⟩
            · simp only; omega
            · simp only; omega
          | cons op2 ops =>
            obtain ⟨e, _, he⟩ := IFsm.walk_stuck (node := ⟨(s + 1) % f.n,
              (((f.mid.modify ((s + 1) % f.n) (· + 1)).getD ((s + 1) % f.n) 0 : Nat) : Int)⟩) hinv (by
                intro hc; apply hne; have := congrArg INode.stat hc; simp only at this; omega) true op2 ops
            rw [he] at hw; cases hw

theorem IFsm.addPath_fails {f : IFsm} (h : f.Inv) (head : Nat) (ops : List OpRepr) :
    (f.addPath head ops).2 ≠ .ok ∧ (f.addPath head ops).1.Inv := by
  unfold IFsm.addPath
  split
  · exact ⟨by simp, h⟩
  · rename_i hlen
    have hinv := IFsm.walk_inv ops.dropLast f ⟨head % f.n, 0⟩ false h
    obtain ⟨op, rest, hop⟩ : ∃ op rest, ops.dropLast = op :: rest := by
      cases hd : ops.dropLast with
      | nil =>
        have : ops.dropLast.length = 0 := by rw [hd]; rfl
        rw [List.length_dropLast] at this; omega
      | cons a b => exact ⟨a, b, rfl⟩
    split
    · rename_i f' e hw
      rw [hw] at hinv
      refine ⟨?_, hinv⟩
      -- an error outcome of the walk is never `ok`
      have herr : ∀ (ops : List OpRepr) (f : IFsm) (node : INode) (b : Bool) (e : IRes),
          (f.walk node b ops).2 = .error e → e ≠ .ok := by
        intro ops
        induction ops with
        | nil => intro f node b e he; cases he
        | cons o os ih =>
          intro f node b e he
          unfold IFsm.walk at he
          split at he
          · cases he; decide
          · split at he
            · cases he; decide
            · dsimp only at he
              split at he
              · cases he; decide
              · split at he
                · exact ih _ _ _ _ he
                · exact ih _ _ _ _ he
      exact herr _ _ _ _ _ (by rw [hw])
    · rename_i f' node opened hw
      rw [hw] at hinv
      dsimp only
      split
      · exact ⟨by simp, hinv⟩
      · rename_i s hs
        split
        · exact ⟨by simp, hinv⟩
        · split
          · rename_i hopen
            split
            · exact ⟨by simp, hinv⟩
            · rename_i ls hls
              split
              · exact ⟨by simp, hinv⟩
              · rename_i es hes
                exfalso
                rw [hop] at hw
                have := IFsm.walk_end h _ op rest (by rw [hw]) hopen
                have hk := (hinv.keys _ ls hls _ (lookup_mem hes)).2
                rcases hk with hk | hk
                · exact this.1 hk
                · exact this.2 hk
          · exact ⟨by simp, hinv⟩

end Verif.Mpo
