import Verif.Mpi.FarmStep
import Mathlib.Algebra.BigOperators.Intervals

/-!
# The master's steps keep the invariant
-/
namespace Verif.Mpi
open Function Finset

variable {R O : Type} [AddCommMonoid O]

namespace Farm
variable {F : Farm} {f : Nat → R} {o : Nat → O} {m : Nat}

theorem card_starts : (F.starts m).card = m := by
  simp [starts, Multiset.card_sum]

theorem card_given (i : Nat) : (F.given m i).card = min i (F.total - m) := by
  simp [given]

theorem given_succ {i : Nat} (h : i < F.total - m) : F.given m (i + 1) = F.given m i + {F.reply i} := by
  have e1 : min (i + 1) (F.total - m) = i + 1 := by omega
  have e2 : min i (F.total - m) = i := by omega
  simp only [given, e1, e2, List.range_succ, List.map_append, List.map_cons, List.map_nil]
  rw [← Multiset.coe_add, Multiset.coe_singleton]

theorem given_late {i : Nat} (h : F.total - m ≤ i) : F.given m (i + 1) = F.given m i := by
  have e1 : min (i + 1) (F.total - m) = F.total - m := by omega
  have e2 : min i (F.total - m) = F.total - m := by omega
  simp only [given, e1, e2]

theorem outs_swap (stg : Nat → Stage) {r : Nat} (h1 : 1 ≤ r) (h2 : r ≤ m) (x : Stage) :
    F.outs m (update stg r x) + F.out (stg r) = F.outs m stg + F.out x := sum_swap F.out stg h1 h2 x

theorem got_closeAt (i : Nat) (g : List (Nat × R)) (ov : O) : got (F.closeAt i g ov) = g := by
  unfold closeAt; split <;> rfl

theorem got_gatherAt (i : Nat) (g : List (Nat × R)) : got (F.gatherAt i g : Pc R O) = g := by
  unfold gatherAt
  split
  · rfl
  · exact got_closeAt _ _ _

theorem got_handAt (i : Nat) : got (F.handAt i : Pc R O) = [] := by
  unfold handAt
  split
  · rfl
  · exact got_gatherAt _ _

theorem mWeight_closeAt (i : Nat) (g : List (Nat × R)) (ov : O) : F.mWeight m (F.closeAt i g ov) ≤ 4 * (m - i) := by
  unfold closeAt; split <;> simp [mWeight]

theorem mWeight_gatherAt (i : Nat) (g : List (Nat × R)) : F.mWeight m (F.gatherAt i g : Pc R O) ≤ 4 * (F.total - i) + 4 * m := by
  unfold gatherAt
  split
  · simp [mWeight]
  · exact (mWeight_closeAt 0 g 0).trans (by omega)

theorem mWeight_handAt (i : Nat) : F.mWeight m (F.handAt i : Pc R O) ≤ 3 * (m - i) + 4 * F.total + 4 * m := by
  unfold handAt
  split
  · simp [mWeight]
  · exact (mWeight_gatherAt 0 []).trans (by omega)

theorem closeAt_inv (hF : F.WF m) {stg : Nat → Stage} {i : Nat} {g : List (Nat × R)} {ov : O} (hc : F.closing = true) (hi : i ≤ m)
    (h1 : ∀ r, 1 ≤ r → r ≤ i → Over (stg r)) (h2 : ∀ r, i < r → r ≤ m → F.Term (stg r)) (hg : F.Full f m g)
    (hov : ov = ∑ r ∈ Icc 1 i, ovOf o (stg r).did) : F.MInv f o m stg (F.closeAt i g ov) := by
  unfold closeAt
  rw [hF.closers hc]
  split
  · rename_i h
    exact ⟨hc, h.2, h1, h2, hg, hov⟩
  · rename_i h
    have : i = m := by
      by_contra hne
      exact h ⟨hc, by omega⟩
    subst this
    exact ⟨fun r r1 r2 => by rw [if_pos hc]; exact h1 r r1 r2, hg, by rw [if_pos hc]; exact hov⟩

theorem out_live {x : Stage} (h : F.Live x) : F.out x ≠ 0 := by
  cases x <;> simp_all [Live, out]

theorem gatherAt_inv (hF : F.WF m) {stg : Nat → Stage} {i : Nat} {g : List (Nat × R)} (hi : i ≤ F.total) (hl : g.length = i)
    (h1 : ∀ r, 1 ≤ r → r ≤ m → F.Live (stg r) ∨ F.Term (stg r))
    (h2 : ((g.map Prod.fst : List Nat) : Multiset Nat) + F.outs m stg = F.starts m + F.given m i)
    (h3 : ∀ x ∈ g, x.2 = f x.1) : F.MInv f o m stg (F.gatherAt i g) := by
  unfold gatherAt
  split
  · rename_i h
    exact ⟨h, hl, h1, h2, h3⟩
  · have hiT : i = F.total := by omega
    rw [hiT] at h2
    have hcard := congrArg Multiset.card h2
    rw [Multiset.card_add, Multiset.card_add, card_starts, card_given, Multiset.coe_card, List.length_map, hl] at hcard
    have hz : F.outs m stg = 0 := by
      rw [← Multiset.card_eq_zero]
      have := hF.total
      omega
    have hterm : ∀ r, 1 ≤ r → r ≤ m → F.Term (stg r) := fun r r1 r2 =>
      (h1 r r1 r2).elim (fun hlive => by
        have := (Finset.sum_eq_zero_iff.mp hz) r (by simp [r1, r2])
        exact absurd this (out_live hlive)) id
    have hfull : F.Full f m g := ⟨by rw [← h2, hz, add_zero], h3⟩
    by_cases hc : F.closing = true
    · exact closeAt_inv hF hc (Nat.zero_le _) (fun r r1 r2 => by omega) (fun r r1 r2 => hterm r r1 r2) hfull (by simp)
    · unfold closeAt
      rw [if_neg (fun h => hc h.1)]
      exact ⟨fun r r1 r2 => by rw [if_neg hc]; exact hterm r r1 r2, hfull, by rw [if_neg hc]⟩

/-- The master moves, one worker's stage becomes `x`. -/
theorem Inv.masterMove {s s' : St (Pc R O) (Pay R O)} {stg : Nat → Stage} {r : Nat} {x : Stage} (h : F.Inv f o m s stg)
    (h1 : 1 ≤ r) (h2 : r ≤ m)
    (hp : ∀ q, q ≠ r → q ≠ 0 → s'.proc q = s.proc q) (hb : ∀ q, q ≠ r → q ≠ 0 → s'.blk q = s.blk q)
    (hc : ∀ a b, ¬ (a = r ∧ b = 0) → ¬ (a = 0 ∧ b = r) → s'.chan a b = s.chan a b)
    (hv : V s' r = F.view f o r x) (hb0 : s'.blk 0 = true → x.flagged = true)
    (hM : F.MInv f o m (update stg r x) (s'.proc 0))
    (hd : ((((got (s'.proc 0)).map Prod.fst).filter (· < F.tasks) : List Nat) : Multiset Nat) + F.flight x
      = (((got (s.proc 0)).map Prod.fst).filter (· < F.tasks) : List Nat) + F.flight (stg r))
    (hdid : x.did = (stg r).did)
    (hw : F.mWeight m (s'.proc 0) + x.weight < F.mWeight m (s.proc 0) + (stg r).weight) :
    ∃ stg', F.Inv f o m s' stg' ∧ F.weight m stg' (s'.proc 0) < F.weight m stg (s.proc 0) := by
  refine ⟨update stg r x, ⟨frame h.base h1 h2 hp hb hc hv, fun hb1 => ⟨r, h1, h2, by rw [update_self]; exact hb0 hb1⟩, hM, ?_⟩, ?_⟩
  · have hD := h.dids
    unfold DInv at hD ⊢
    rw [sum_same (fun y : Stage => ((y.did : List Nat) : Multiset Nat)) stg (by rw [hdid]) (Icc 1 m), hD]
    have e2 := sum_swap (m := m) F.flight stg h1 h2 x
    have : ((((got (s'.proc 0)).map Prod.fst).filter (· < F.tasks) : List Nat) : Multiset Nat)
        + ∑ q ∈ Icc 1 m, F.flight (update stg r x q) + F.flight (stg r)
        = (((got (s.proc 0)).map Prod.fst).filter (· < F.tasks) : List Nat) + ∑ q ∈ Icc 1 m, F.flight (stg q) + F.flight (stg r) := by
      rw [add_assoc, e2, ← add_assoc, add_right_comm, hd, add_right_comm]
    exact (add_right_cancel this).symm
  · have e := sum_swap (m := m) Stage.weight stg h1 h2 x
    simp only [weight]
    omega

theorem Inv.master_send (hF : F.WF m) {s : St (Pc R O) (Pay R O)} {stg : Nat → Stage} (h : F.Inv f o m s stg)
    {d t : Nat} {v : Pay R O} {n : Pc R O} (b : Bool) (_hblk : s.blk 0 = false)
    (hact : F.act f o 0 (s.proc 0) = .send d t v n) :
    ∃ stg', F.Inv f o m
        { proc := Function.update s.proc 0 n
          chan := setChan s.chan 0 d (s.chan 0 d ++ [⟨t, v, b⟩])
          blk := Function.update s.blk 0 b } stg' ∧
      F.weight m stg' (Function.update s.proc 0 n 0) < F.weight m stg (s.proc 0) := by
  have hM := h.master
  have hpq : ∀ r q, q ≠ r → q ≠ 0 → update s.proc 0 n q = s.proc q := fun r q _ hq => update_of_ne hq _ _
  have hbq : ∀ r q, q ≠ r → q ≠ 0 → update s.blk 0 b q = s.blk q := fun r q _ hq => update_of_ne hq _ _
  have hV : ∀ r, 1 ≤ r → r = d → V (⟨update s.proc 0 n, setChan s.chan 0 d (s.chan 0 d ++ [⟨t, v, b⟩]), update s.blk 0 b⟩
      : St (Pc R O) (Pay R O)) r = (s.proc r, s.blk r, s.chan r 0, s.chan 0 r ++ [⟨t, v, b⟩]) := by
    rintro r hr rfl
    have hr0 : r ≠ 0 := by omega
    simp only [V, update_of_ne hr0, setChan_same]
    rw [setChan_ne (by omega)]
  cases hp : s.proc 0 with
  | hand i =>
    rw [hp] at hact hM
    simp only [act, Act.send.injEq] at hact
    obtain ⟨rfl, rfl, rfl, rfl⟩ := hact
    obtain ⟨a1, a2, a3, a4, a5⟩ := hM
    have hst := a4 (i + 1) (by omega) (by omega)
    have hmore := hF.first a2 (i + 1) (by omega) (by omega)
    obtain ⟨e1, e2, e3, e4⟩ := view_eqs (h.base.view (i + 1) (by omega) (by omega))
    rw [hst] at e1 e2 e3 e4
    rw [← hp]
    have hout : F.outs m (update stg (i + 1) (.rep (F.start (i + 1)) [] b)) = F.outs m stg + {F.start (i + 1)} := by
      have := outs_swap (F := F) (m := m) stg (r := i + 1) (by omega) (by omega) (.rep (F.start (i + 1)) [] b)
      rw [hst] at this
      simpa [out, hmore] using this
    have hsplit : ∑ r ∈ Icc (i + 1) m, ({F.start r} : Multiset Nat) = {F.start (i + 1)} + ∑ r ∈ Icc (i + 2) m, {F.start r} := by
      have : Icc (i + 1) m = insert (i + 1) (Icc (i + 2) m) := by
        ext a
        simp only [Finset.mem_Icc, Finset.mem_insert]
        omega
      rw [this, Finset.sum_insert (by simp)]
    refine h.masterMove (r := i + 1) (x := .rep (F.start (i + 1)) [] b) (by omega) (by omega) (hpq _) (hbq _) ?_ ?_ ?_ ?_ ?_ ?_ ?_
    · intro a c _ hac; exact setChan_ne hac
    · rw [hV _ (by omega) rfl, e1, e2, e3, e4]
      simp [view]
    · intro hb; simpa [Stage.flagged] using hb
    · show F.MInv f o m _ (update s.proc 0 (F.handAt (i + 1)) 0)
      rw [update_self]
      have hlive : ∀ r, 1 ≤ r → r ≤ i + 1 → F.Live (update stg (i + 1) (.rep (F.start (i + 1)) [] b) r) := fun r r1 r2 => by
        by_cases hr : r = i + 1
        · subst hr; rw [update_self]; exact hmore
        · rw [update_of_ne hr]; exact a3 r r1 (by omega)
      unfold handAt
      rw [hF.handouts a2]
      split
      · rename_i hlt
        refine ⟨hlt.2, a2, hlive, fun r r1 r2 => ?_, ?_⟩
        · rw [update_of_ne (by omega)]; exact a4 r (by omega) r2
        · rw [hout, ← a5, hsplit]; abel
      · rename_i hlt
        have him : i + 1 = m := by
          by_contra hne
          exact hlt ⟨a2, by omega⟩
        refine gatherAt_inv hF (Nat.zero_le _) rfl (fun r r1 r2 => Or.inl (hlive r r1 (by omega))) ?_ (by simp)
        rw [hout, ← a5, hsplit]
        have : Icc (i + 2) m = ∅ := Finset.Icc_eq_empty (by omega)
        rw [this]
        simp [given]
    · show _ = _
      rw [hst, hp]
      simp only [update_self]
      rw [got_handAt]
      rfl
    · rw [hst]; rfl
    · rw [hst, hp]
      have := mWeight_handAt (F := F) (R := R) (O := O) (m := m) (i + 1)
      show F.mWeight m (update s.proc 0 (F.handAt (i + 1)) 0) + 2 < 3 * (m - i) + 4 * F.total + 4 * m + 0
      rw [update_self]
      omega
  | reply i g w =>
    rw [hp] at hact hM
    simp only [act, Act.send.injEq] at hact
    obtain ⟨rfl, rfl, rfl, rfl⟩ := hact
    obtain ⟨a1, a2, a3, a4, ⟨dd, a5⟩, a6, a7, a8⟩ := hM
    obtain ⟨e1, e2, e3, e4⟩ := view_eqs (h.base.view w a3 a4)
    rw [a5] at e1 e2 e3 e4
    rw [← hp]
    have hout : F.outs m (update stg w (.rep (F.reply i) dd b)) = F.outs m stg + F.out (.rep (F.reply i) dd b) := by
      have := outs_swap (F := F) (m := m) stg a3 a4 (.rep (F.reply i) dd b)
      rw [a5] at this
      simpa [out] using this
    refine h.masterMove (r := w) (x := .rep (F.reply i) dd b) a3 a4 (hpq _) (hbq _) ?_ ?_ ?_ ?_ ?_ ?_ ?_
    · intro a c _ hac; exact setChan_ne hac
    · rw [hV _ a3 rfl, e1, e2, e3, e4]
      simp [view]
    · intro hb; simpa [Stage.flagged] using hb
    · show F.MInv f o m _ (update s.proc 0 (F.gatherAt (i + 1) g) 0)
      rw [update_self]
      refine gatherAt_inv hF (by omega) a2 (fun r r1 r2 => ?_) ?_ a8
      · by_cases hr : r = w
        · subst hr
          rw [update_self]
          cases hm : F.more (F.reply i) with
          | true => exact Or.inl hm
          | false => exact Or.inr hm
        · rw [update_of_ne hr]; exact a6 r r1 r2 hr
      · rw [hout, ← add_assoc, a7]
        by_cases hi : i < F.total - m
        · rw [given_succ hi]
          simp [out, hF.goOn i hi, add_assoc]
        · rw [given_late (by omega)]
          simp [out, hF.stop i (by omega) a1]
    · rw [a5, hp]
      simp only [update_self]
      rw [got_gatherAt]
      rfl
    · rw [a5]; rfl
    · rw [a5, hp]
      have := mWeight_gatherAt (F := F) (R := R) (O := O) (m := m) (i + 1) g
      show F.mWeight m (update s.proc 0 (F.gatherAt (i + 1) g) 0) + 2 < 4 * (F.total - i) - 1 + 4 * m + 0
      rw [update_self]
      omega
  | close i g ov =>
    rw [hp] at hact hM
    simp only [act, Act.send.injEq] at hact
    obtain ⟨rfl, rfl, rfl, rfl⟩ := hact
    obtain ⟨a1, a2, a3, a4, a5, a6⟩ := hM
    obtain ⟨e1, e2, e3, e4⟩ := view_eqs (h.base.view (i + 1) (by omega) (by omega))
    rw [← hp]
    have hterm := a4 (i + 1) (by omega) (by omega)
    have key : ∀ x : Stage, F.view f o (i + 1) x = ((F.view f o (i + 1) (stg (i + 1))).1, (F.view f o (i + 1) (stg (i + 1))).2.1,
        (F.view f o (i + 1) (stg (i + 1))).2.2.1, (F.view f o (i + 1) (stg (i + 1))).2.2.2 ++ [⟨F.sigTag (i + 1), .sig F.signal, b⟩]) →
        (b = true → x.flagged = true) → F.Clos x → x.did = (stg (i + 1)).did → F.flight x = 0 → F.flight (stg (i + 1)) = 0 →
        x.weight ≤ (stg (i + 1)).weight + 2 → _ := fun x hv hb0 hk hdid hfl hfl' hw =>
      h.masterMove (r := i + 1) (x := x) (s' := ⟨update s.proc 0 (.closing i g ov), setChan s.chan 0 (i + 1)
          (s.chan 0 (i + 1) ++ [⟨F.sigTag (i + 1), .sig F.signal, b⟩]), update s.blk 0 b⟩) (by omega) (by omega) (hpq _) (hbq _)
        (fun a c _ hac => setChan_ne hac)
        (by rw [hV _ (by omega) rfl, e1, e2, e3, e4, hv]) (by intro hb; exact hb0 (by simpa using hb))
        (by
          show F.MInv f o m _ (update s.proc 0 (.closing i g ov) 0)
          rw [update_self]
          refine ⟨a1, a2, fun r r1 r2 => ?_, by rw [update_self]; exact hk, fun r r1 r2 => ?_, a5, ?_⟩
          · rw [update_of_ne (by omega)]; exact a3 r r1 r2
          · rw [update_of_ne (by omega)]; exact a4 r (by omega) r2
          · rw [a6]
            exact Finset.sum_congr rfl fun r hr => by
              rw [Finset.mem_Icc] at hr
              rw [update_of_ne (by omega)])
        (by rw [hp, hfl, hfl']; simp [got]) hdid
        (by
          rw [hp]
          simp only [update_self, mWeight]
          omega)
    cases hst : stg (i + 1) with
    | rep j dd b' =>
      refine key (.repSig j dd b' b) (by rw [hst]; simp [view]) (by simp [Stage.flagged]; intro h; exact Or.inr h) ?_ (by rw [hst]; rfl) rfl (by rw [hst]; rfl)
        (by rw [hst]; simp [Stage.weight])
      rw [hst] at hterm
      exact hterm
    | fin dd =>
      exact key (.finSig dd b) (by rw [hst]; simp [view]) (by simp [Stage.flagged]) trivial (by rw [hst]; rfl) rfl (by rw [hst]; rfl)
        (by rw [hst]; simp [Stage.weight])
    | over dd =>
      rw [hst] at hterm
      simp [Term, a1] at hterm
    | _ => rw [hst] at hterm; exact hterm.elim
  | comp => rw [hp] at hM; exact hM.elim
  | wait => rw [hp] at hM; exact hM.elim
  | fin => rw [hp] at hM; exact hM.elim
  | ans => rw [hp] at hM; exact hM.elim
  | _ => rw [hp] at hact; simp [act] at hact

theorem Inv.master_recv (hF : F.WF m) {s : St (Pc R O) (Pay R O)} {stg : Nat → Stage} (h : F.Inv f o m s stg)
    {q : Nat} {src tag : Option Nat} {k : Nat → Nat → Pay R O → Pc R O} {pre post : List (Msg (Pay R O))} {a : Msg (Pay R O)}
    (hblk : s.blk 0 = false) (hact : F.act f o 0 (s.proc 0) = .recv src tag k)
    (hsrc : fits src q) (htag : fits tag a.tag)
    (hch : s.chan q 0 = pre ++ a :: post) (hpre : ∀ x ∈ pre, ¬ fits tag x.tag) :
    ∃ stg', F.Inv f o m
        { proc := Function.update s.proc 0 (k q a.tag a.val)
          chan := setChan s.chan q 0 (pre ++ post)
          blk := if a.sync then Function.update s.blk q false else s.blk } stg' ∧
      F.weight m stg' (Function.update s.proc 0 (k q a.tag a.val) 0) < F.weight m stg (s.proc 0) := by
  have hM := h.master
  have hq : 1 ≤ q ∧ q ≤ m := by
    by_contra hq
    have := h.base.empty q 0 (by omega)
    rw [this] at hch
    simp at hch
  obtain ⟨h1, h2⟩ := hq
  have hq0 : q ≠ 0 := by omega
  obtain ⟨e1, e2, e3, e4⟩ := view_eqs (h.base.view q h1 h2)
  have hpq : ∀ n r, r ≠ q → r ≠ 0 → update s.proc 0 n r = s.proc r := fun n r _ hr => update_of_ne hr _ _
  have hbq : ∀ r, r ≠ q → r ≠ 0 → (if a.sync then update s.blk q false else s.blk) r = s.blk r := fun r hr _ => by
    split
    · exact update_of_ne hr _ _
    · rfl
  have hbz : (if a.sync then update s.blk q false else s.blk) 0 = false := by
    split
    · rw [update_of_ne (Ne.symm hq0)]; exact hblk
    · exact hblk
  have hcc : ∀ l c d, ¬ (c = q ∧ d = 0) → ¬ (c = 0 ∧ d = q) → setChan s.chan q 0 l c d = s.chan c d :=
    fun l c d hcd _ => setChan_ne hcd
  have hbs : s.blk q = a.sync → (if a.sync then update s.blk q false else s.blk) q = false := fun hb => by
    split
    · rw [update_self]
    · rename_i h'; rw [hb]; simpa using h'
  cases hp : s.proc 0 with
  | gather i g =>
    rw [hp] at hact hM
    simp only [act, Act.recv.injEq] at hact
    obtain ⟨rfl, rfl, rfl⟩ := hact
    obtain ⟨a1, a2, a3, a4, a5⟩ := hM
    rw [← hp]
    cases hst : stg q with
    | sent j dd b =>
      rw [hst] at e1 e2 e3 e4
      simp only [view] at e1 e2 e3 e4
      obtain ⟨rfl, rfl, rfl⟩ := single_split e3 hch
      have hout : F.outs m (update stg q (.pend dd)) + {j} = F.outs m stg := by
        have := outs_swap (F := F) (m := m) stg h1 h2 (.pend dd)
        rw [hst] at this
        simpa [out] using this
      refine h.masterMove (r := q) (x := .pend dd) h1 h2 (hpq _) hbq (hcc _) ?_ ?_ ?_ ?_ ?_ ?_
      · simp only [V, update_of_ne hq0, setChan_same]
        rw [hbs e2, e1, setChan_ne (by omega), e4]
        rfl
      · intro hb
        exact absurd (hbz.symm.trans hb) (by simp)
      · show F.MInv f o m _ (update s.proc 0 (.reply i (g ++ [(j, f j)]) q) 0)
        rw [update_self]
        refine ⟨a1, by simp [a2], h1, h2, ⟨dd, by rw [update_self]⟩, fun r r1 r2 hr => ?_, ?_, ?_⟩
        · rw [update_of_ne hr]; exact a3 r r1 r2
        · rw [← a4, ← hout, List.map_append, ← Multiset.coe_add]
          simp only [List.map_cons, List.map_nil, Multiset.coe_singleton]
          abel
        · intro x hx
          rw [List.mem_append, List.mem_singleton] at hx
          rcases hx with hx | rfl
          · exact a5 x hx
          · rfl
      · rw [hst, hp]
        simp only [update_self, got, flight, List.map_append, List.filter_append, List.map_cons, List.map_nil, ← Multiset.coe_add]
        by_cases hj : j < F.tasks
        · simp [hj]
        · simp [hj]
      · rw [hst]; rfl
      · rw [hst, hp]
        simp only [update_self, Stage.weight, mWeight]
        omega
    | ansSent dd b =>
      have := a3 q h1 h2
      rw [hst] at this
      simp [Live, Term] at this
    | _ =>
      rw [hst] at e3
      rw [e3] at hch
      simp [view] at hch
  | closing i g ov =>
    rw [hp] at hact hM
    simp only [act, Act.recv.injEq] at hact
    obtain ⟨rfl, rfl, rfl⟩ := hact
    obtain ⟨a1, a2, a3, a4, a5, a6, a7⟩ := hM
    rw [← hp]
    have hqi : q = i + 1 := by
      rcases hsrc with h | h
      · simp at h
      · exact (Option.some.inj h).symm
    subst hqi
    cases hst : stg (i + 1) with
    | ansSent dd b =>
      rw [hst] at e1 e2 e3 e4
      simp only [view] at e1 e2 e3 e4
      obtain ⟨rfl, rfl, rfl⟩ := single_split e3 hch
      refine h.masterMove (r := i + 1) (x := .over dd) h1 h2 (hpq _) hbq (hcc _) ?_ ?_ ?_ ?_ ?_ ?_
      · simp only [V, update_of_ne hq0, setChan_same]
        rw [hbs e2, e1, setChan_ne (by omega), e4]
        rfl
      · intro hb
        exact absurd (hbz.symm.trans hb) (by simp)
      · show F.MInv f o m _ (update s.proc 0 (F.closeAt (i + 1) g (ov + ovOf o dd)) 0)
        rw [update_self]
        refine closeAt_inv hF a1 h2 (fun r r1 r2 => ?_) (fun r r1 r2 => ?_) a6 ?_
        · by_cases hr : r = i + 1
          · subst hr; rw [update_self]; trivial
          · rw [update_of_ne hr]; exact a3 r r1 (by omega)
        · rw [update_of_ne (by omega)]; exact a5 r r1 r2
        · rw [Finset.sum_Icc_succ_top (by omega), update_self, a7]
          congr 1
          exact Finset.sum_congr rfl fun r hr => by
            rw [Finset.mem_Icc] at hr
            rw [update_of_ne (by omega)]
      · rw [hst, hp]
        simp only [update_self]
        rw [got_closeAt]
        rfl
      · rw [hst]; rfl
      · rw [hst, hp]
        have := mWeight_closeAt (F := F) (R := R) (O := O) (m := m) (i + 1) g (ov + ovOf o dd)
        show F.mWeight m (update s.proc 0 (F.closeAt (i + 1) g (ov + ovOf o dd)) 0) + 0 < 4 * (m - i) - 3 + 0
        rw [update_self]
        omega
    | sent j dd b => rw [hst] at a4; exact a4.elim
    | _ =>
      rw [hst] at e3
      rw [e3] at hch
      simp [view] at hch
  | comp => rw [hp] at hM; exact hM.elim
  | wait => rw [hp] at hM; exact hM.elim
  | fin => rw [hp] at hM; exact hM.elim
  | ans => rw [hp] at hM; exact hM.elim
  | _ => rw [hp] at hact; simp [act] at hact

end Farm
end Verif.Mpi
