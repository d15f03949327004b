import Verif.Mpi.Phase

/-!
# A phase without receives from any source

`sync_rule`: if the ranks can communicate one message after the other from `σ` to `ρ`, each message being received
at once, then it is enough to consider the executions from `ρ`.
-/
namespace Verif.Mpi
open Function

variable {S V : Type}

/-- In the executions determined by a synchronous one all receives name their source. -/
theorem sync_named {act : Nat → S → Act S V} {m : Nat} {τ σ : Nat → S} (h : SyncRun act m τ σ) (hσ : ∀ r, act r (σ r) = .stop) {k : Nat} {s : St S V}
    (hk : Steps act k (fresh τ) s) {r : Nat} {src tag : Option Nat} {c : Nat → Nat → V → S} (hr : act r (s.proc r) = .recv src tag c) : ∃ q, src = some q := by
  obtain ⟨L0, h1, h2, h3⟩ := h.eval
  have h0 : YInv act σ (fresh τ) L0 := by
    refine ⟨h1, ?_, fun q r => ?_, fun q hq => by simp [fresh] at hq⟩
    · rw [List.pairwise_iff_forall_sublist]
      intro x y hxy vb hvb
      have := h3 y (hxy.subset (by simp))
      rw [this] at hvb
      simp at hvb
    · rw [filterMap_nil_of fun x hx _ _ => h3 x hx]
      rfl
  obtain ⟨μ, ⟨L, hI, hμ⟩, hle⟩ := Steps.measure (I := fun s μ => ∃ L, YInv act σ s L ∧ μ = yweight L)
    (fun s μ s' ⟨L, hI, hμ⟩ hs => by
      obtain ⟨L', hI', hlt⟩ := hI.step hσ hs
      exact ⟨_, ⟨L', hI', rfl⟩, by rw [hμ]; exact hlt⟩) ⟨L0, h0, rfl⟩ hk
  have he := hI.eval
  rcases firstTodo L r with hno | ⟨pre, x, post, rfl, hpre, hx⟩
  · rw [← List.append_nil L] at he
    obtain ⟨τ', he', hτ'⟩ := he.first hno
    cases he'
    rw [← hτ', hσ r] at hr
    cases hr
  · obtain ⟨τ', he', hτ'⟩ := he.first hpre
    rw [← hτ'] at hr
    cases he' with
    | @pend _ q r' t _ _ v n c' hqr hs' hr' h' =>
      rcases hx with hx | ⟨hx, -⟩
      · simp only at hx
        subst hx
        rw [hr] at hr'
        cases hr'
        exact ⟨q, rfl⟩
      · simp only at hx
        subst hx
        rw [hr] at hs'
        cases hs'
    | @fly _ q r' t _ _ v b c' hqr hr' h' =>
      rcases hx with hx | ⟨-, hx⟩
      · simp only at hx
        subst hx
        rw [hr] at hr'
        cases hr'
        exact ⟨q, rfl⟩
      · simp at hx

/-- The program that stops after a given number of calls. -/
def countAct (act : Nat → S → Act S V) (r : Nat) : Nat × S → Act (Nat × S) V
  | (0, _) => .stop
  | (c + 1, p) =>
    match act r p with
    | .stop => .stop
    | .send d t v n => .send d t v (c, n)
    | .recv src tag k => .recv src tag fun q t v => (c, k q t v)

theorem count_sync {act : Nat → S → Act S V} {m : Nat} {τ σ : Nat → S} (h : SyncRun act m τ σ) :
    ∃ cnt : Nat → Nat, SyncRun (countAct act) m (fun r => (cnt r, τ r)) (fun r => (0, σ r)) := by
  induction h with
  | nil => exact ⟨fun _ => 0, .nil⟩
  | @comm m q r t τ σ v n k hqr hs hr h ih =>
    obtain ⟨cnt, ih⟩ := ih
    refine ⟨update (update cnt q (cnt q + 1)) r (cnt r + 1), .comm (q := q) (r := r) (t := t) (v := v) (n := (cnt q, n)) (k := fun q t v => (cnt r, k q t v)) hqr ?_ ?_ ?_⟩
    · simp only [update_of_ne hqr, update_self, countAct, hs]
    · simp only [update_self, countAct, hr]
    · convert ih using 1
      funext p
      by_cases hpr : p = r
      · subst hpr; simp
      · by_cases hpq : p = q
        · subst hpq; simp [update_of_ne hpr]
        · simp [update_of_ne hpr, update_of_ne hpq]

/-- The embedding that forgets the number. -/
def countEmb (bad : S) : Emb (Nat × S) V S V where
  e _ b := b.2
  ι := id
  un := some
  θ := id
  θ' := id
  bad := bad
  un_ι _ := rfl
  θ_inv _ := rfl

theorem sync_rule {act : Nat → S → Act S V} {m B' : Nat} {σ ρ : Nat → S} {Q : (Nat → S) → Prop} (h : SyncRun act m σ ρ)
    (hrest : Ends act (fresh ρ) B' Q) : Ends act (fresh σ) (2 * m + B') Q := by
  obtain ⟨cnt, hc⟩ := count_sync h
  have hstop : ∀ r, countAct act r (0, ρ r) = .stop := fun r => rfl
  refine phase (G := False) (E := countEmb (σ 0)) (actB := countAct act) (act := act) (τ := fun r => (cnt r, σ r)) (B := 2 * m)
    (QB := fun β => β = fun r => (0, ρ r)) ⟨fun n s hs => (sync_determines hc hstop hs).1, fun n s hs hst => (sync_determines hc hstop hs).2 hst⟩
    ?_ (fun n s hs r src tag k hr => Or.inl (sync_named hc hstop hs hr)) (fun h => h.elim) ?_
  · intro _ s _ r hb
    generalize s.proc r = b at hb ⊢
    obtain ⟨c, p⟩ := b
    cases c with
    | zero => exact absurd rfl hb
    | succ c =>
      show act r p = (countEmb (σ 0)).lift r (countAct act r (c + 1, p))
      simp only [countAct]
      cases act r p <;> simp [Emb.lift, countEmb]
  · rintro β rfl
    exact hrest

end Verif.Mpi
