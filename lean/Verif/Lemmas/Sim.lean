import Verif.Lemmas.Server
import Verif.Lemmas.Stream
/-
Two file servers that return the same results cannot be told apart through a connection.
-/

namespace Ninep
open Spec
variable {σ τ : Type}

/-- same outcome, related states -/
def ResRel {α : Type} (R : σ → τ → Prop) : NRes σ α → NRes τ α → Prop
  | .panic, .panic => True
  | .ok s a, .ok t b => R s t ∧ a = b
  | .err s e, .err t f => R s t ∧ e = f
  | _, _ => False

/-- same version state, related file servers -/
def SrvRel (R : σ → τ → Prop) (s : Server σ) (t : Server τ) : Prop := s.Versioned = t.Versioned ∧ R s.ns t.ns

def DispRel (R : σ → τ → Prop) : DispRes σ → DispRes τ → Prop
  | .panic, .panic => True
  | .done s b, .done t c => SrvRel R s t ∧ b = c
  | _, _ => False

/-- every request has the same outcome -/
def Same (R : σ → τ → Prop) (ns : NineServer σ) (nt : NineServer τ) : Prop :=
  ∀ m s t, R s t → ResRel R (call ns m s) (call nt m t)

section
variable {R : σ → τ → Prop} {ns : NineServer σ} {nt : NineServer τ}

theorem handle_sim (h : Same R ns nt) {s : Server σ} {t : Server τ} (hr : SrvRel R s t) (u : Unm TMsg) :
    DispRel R (handle ns s u) (handle nt t u) := by
  cases u with
  | panic => trivial
  | done m tag e b =>
    have := h m s.ns t.ns hr.2
    unfold handle
    dsimp only
    generalize call ns m s.ns = x at this
    generalize call nt m t.ns = y at this
    cases x <;> cases y <;> try exact this.elim
    · trivial
    · obtain ⟨h1, rfl⟩ := this
      exact ⟨⟨hr.1, h1⟩, rfl⟩
    · obtain ⟨h1, rfl⟩ := this
      exact ⟨⟨hr.1, h1⟩, rfl⟩

theorem dispatch_sim (h : Same R ns nt) {s : Server σ} {t : Server τ} (hr : SrvRel R s t) (b : Buffer) (ty : MType) :
    DispRel R (dispatch ns s b ty) (dispatch nt t b ty) := by
  by_cases hq : ty.toNat ∈ requestTypes
  · obtain ⟨m, rfl⟩ := ty_of_mem hq
    by_cases hv : s.Versioned = true ∨ m.ty = MT.Tversion
    · rw [dispatch_request ns m s b hv, dispatch_request nt m t b (by rw [← hr.1]; exact hv)]
      exact handle_sim h (s := { s with Versioned := true }) (t := { t with Versioned := true }) ⟨rfl, hr.2⟩ _
    · simp only [not_or, Bool.not_eq_true] at hv
      unfold dispatch
      rw [if_neg hv.2, if_neg hv.2, if_pos hv.1, if_pos (by rw [← hr.1]; exact hv.1)]
      split
      · exact ⟨hr, rfl⟩
      · trivial
  · have hne : ∀ n : MType, n.toNat ∈ requestTypes → ty ≠ n := by
      rintro n hn rfl; exact hq hn
    unfold dispatch
    rw [if_neg (hne MT.Tversion (by decide)), if_neg (hne MT.Tversion (by decide))]
    cases hv : s.Versioned with
    | false =>
      rw [if_pos rfl, if_pos (by rw [← hr.1]; exact hv)]
      split
      · exact ⟨hr, rfl⟩
      · trivial
    | true =>
      rw [if_neg (by simp), if_neg (by rw [← hr.1, hv]; simp)]
      unfold dispatchTable
      simp only [if_neg (hne MT.Tversion (by decide)), if_neg (hne MT.Tattach (by decide)),
        if_neg (hne MT.Tflush (by decide)), if_neg (hne MT.Twalk (by decide)), if_neg (hne MT.Topen (by decide)),
        if_neg (hne MT.Tcreate (by decide)), if_neg (hne MT.Tclunk (by decide)), if_neg (hne MT.Tstat (by decide)),
        if_neg (hne MT.Twstat (by decide)), if_neg (hne MT.Tremove (by decide)), if_neg (hne MT.Tread (by decide)),
        if_neg (hne MT.Twrite (by decide))]
      exact ⟨hr, rfl⟩

theorem process_sim (h : Same R ns nt) (spare : Nat → Bytes) (wfail : Nat → Bool) (k : Nat)
    {s : Server σ} {t : Server τ} (hr : SrvRel R s t) (rs : List (MType × Bytes)) (e : Stop) :
    let a := process ns spare wfail k s rs e
    let b := process nt spare wfail k t rs e
    a.execd = b.execd ∧ a.out = b.out ∧ a.stop = b.stop ∧ SrvRel R a.srv b.srv := by
  induction rs generalizing k s t with
  | nil => exact ⟨rfl, rfl, rfl, hr⟩
  | cons r rs ih =>
    obtain ⟨ty, w⟩ := r
    unfold process
    have hd := dispatch_sim h hr ⟨[], w, spare k⟩ ty
    generalize dispatch ns s ⟨[], w, spare k⟩ ty = x at hd
    generalize dispatch nt t ⟨[], w, spare k⟩ ty = y at hd
    cases x <;> cases y <;> try exact hd.elim
    · exact ⟨rfl, rfl, rfl, hr⟩
    · rename_i s1 b1 t1 c1
      obtain ⟨hs, rfl⟩ := hd
      dsimp only
      cases hw : wfail k with
      | true => exact ⟨rfl, rfl, rfl, hs⟩
      | false =>
        simp only [Bool.false_eq_true, if_false]
        obtain ⟨e1, e2, e3, e4⟩ := ih (k + 1) hs
        exact ⟨by rw [e1], by rw [e2], e3, e4⟩

theorem serve_sim (h : Same R ns nt) (spare : Nat → Bytes) (wfail : Nat → Bool) (fin : StreamEnd) (k : Nat)
    {s : Server σ} {t : Server τ} (hr : SrvRel R s t) (segs : List Bytes) :
    let a := serve ns spare wfail fin k s segs
    let b := serve nt spare wfail fin k t segs
    a.execd = b.execd ∧ a.out = b.out ∧ a.stop = b.stop ∧ SrvRel R a.srv b.srv := by
  dsimp only
  rw [serve_eq, serve_eq]
  exact process_sim h spare wfail k hr _ _

end
end Ninep
