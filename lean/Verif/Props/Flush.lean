import Verif.Props.Server
import Verif.Props.Ufs

/-
Flush (C73): requests of a connection are worked on one after the other, so there is never anything to flush.
-/

namespace Ninep
open Spec
variable {σ : Type}

/-- the request is not a flush -/
def notFlush (r : Tag × TMsg) : Bool := match r.2 with | .flush _ => false | _ => true

theorem answers_flush (ns : NineServer σ) (hfl : ∀ o s, ns.Rflush o s = .ok s ()) (reqs : List (Tag × TMsg)) (s x : σ) (ps : List Bytes)
    (h : answers ns reqs s = some (x, ps)) :
    answers ns (reqs.filter notFlush) s = some (x, ((reqs.zip ps).filter fun y => notFlush y.1).map Prod.snd) ∧
    ∀ (i : Nat) t p, reqs[i]? = some (t, .flush p) → ps[i]? = some ((RMsg.flush ⟨⟩).packet t) := by
  induction reqs generalizing s ps with
  | nil => cases h; exact ⟨rfl, fun i t p h => by simp at h⟩
  | cons r reqs ih =>
    obtain ⟨t, m⟩ := r
    unfold answers at h
    cases ha : answer ns t m s with
    | none => rw [ha] at h; cases h
    | some a =>
      rw [ha] at h
      obtain ⟨s1, p⟩ := a
      dsimp only at h
      cases hr : answers ns reqs s1 with
      | none => rw [hr] at h; cases h
      | some y =>
        rw [hr] at h
        obtain ⟨s2, qs⟩ := y
        cases h
        obtain ⟨i1, i2⟩ := ih s1 qs hr
        by_cases hk : notFlush (t, m) = true
        · refine ⟨?_, ?_⟩
          · rw [List.filter_cons_of_pos hk, List.zip_cons_cons, List.filter_cons_of_pos (by exact hk)]
            unfold answers
            rw [ha]
            dsimp only
            rw [i1]
            rfl
          · intro i t' p' hi
            cases i with
            | zero => cases hi; cases hk
            | succ i => exact i2 i t' p' hi
        · cases m with
          | flush q =>
            have hs : s1 = s ∧ p = (RMsg.flush ⟨⟩).packet t := by
              simp only [answer, call, hfl, mapRes, Option.some.injEq, Prod.mk.injEq] at ha
              exact ⟨ha.1.symm, ha.2.symm⟩
            obtain ⟨rfl, rfl⟩ := hs
            refine ⟨?_, ?_⟩
            · rw [List.filter_cons_of_neg hk, List.zip_cons_cons, List.filter_cons_of_neg (by exact hk)]
              exact i1
            · intro i t' p' hi
              cases i with
              | zero => cases hi; rfl
              | succ i => exact i2 i t' p' hi
          | _ => exact absurd rfl hk

/-- **C73** A flush is answered, with its own tag, when everything sent before it has been answered: reply
number `i` is that of request number `i` (C19).  It has no other effect: the connection gives all other
requests the replies, and leaves the file server in the state, that it would without the flushes. -/
theorem C73_flush (ns : NineServer σ) (hfl : ∀ o s, ns.Rflush o s = .ok s ()) (spare spare' : Nat → Bytes) (fin fin' : StreamEnd)
    (reqs : List (Tag × TMsg)) (hf : ∀ r ∈ reqs, r.2.Fits) (hl : ∀ r ∈ reqs, (r.2.packet r.1).length < 2 ^ 32)
    (segs segs' : List Bytes) (ha : Aligned segs) (ha' : Aligned segs')
    (hs : segs.flatten = (reqs.map fun r => r.2.packet r.1).flatten)
    (hs' : segs'.flatten = ((reqs.filter notFlush).map fun r => r.2.packet r.1).flatten)
    (x : σ) (hans : answers ns reqs x ≠ none) :
    let a := serve ns spare (fun _ => false) fin 0 ⟨x, true⟩ segs
    let b := serve ns spare' (fun _ => false) fin' 0 ⟨x, true⟩ segs'
    a.out.length = reqs.length ∧ b.srv.ns = a.srv.ns ∧ b.out = ((reqs.zip a.out).filter fun y => notFlush y.1).map Prod.snd ∧
    ∀ (i : Nat) t p, reqs[i]? = some (t, .flush p) → a.out[i]? = some ((RMsg.flush ⟨⟩).packet t) := by
  dsimp only
  cases h : answers ns reqs x with
  | none => exact absurd h hans
  | some y =>
    obtain ⟨x', ps⟩ := y
    obtain ⟨h1, h2⟩ := answers_flush ns hfl reqs x x' ps h
    obtain ⟨a1, a2, a3⟩ := C19_pipelined ns spare fin reqs hf hl segs ha hs ⟨x, true⟩ (.inl rfl) x' ps h
    obtain ⟨b1, b2, b3⟩ := C19_pipelined ns spare' fin' (reqs.filter notFlush) (fun r hr => hf r (List.mem_filter.1 hr).1)
      (fun r hr => hl r (List.mem_filter.1 hr).1) segs' ha' hs' ⟨x, true⟩ (.inl rfl) x' _ h1
    refine ⟨?_, by rw [a2, b2], by rw [a1, b1], by rw [a1]; exact h2⟩
    rw [a1]
    clear h1 h2 a1 a2 a3 b1 b2 b3 hs hs' hf hl hans
    induction reqs generalizing x ps with
    | nil => cases h; rfl
    | cons r reqs ih =>
      obtain ⟨t, m⟩ := r
      unfold answers at h
      split at h
      · cases h
      · split at h
        · cases h
        · rename_i hq
          cases h
          simp [ih _ _ hq]

/-- the Unix file server meets the condition -/
theorem Ufs.C73_ufs {ω H : Type} (host : Ufs.Host ω H) (user : GoString) (o : Tag) (s : Ufs.State ω H) :
    (Ufs.ufs host user).Rflush o s = .ok s () := rfl

/-- a pipeline with a flush in the middle -/
example : answers (Ufs.ufs Ufs.Mem.host [103]) [(1, Ufs.attach0), (2, .flush ⟨1⟩), (3, .clunk { OFID := 0 })] Ufs.demo ≠ none ∧
    Aligned [((([(1, Ufs.attach0), (2, .flush ⟨1⟩), (3, .clunk { OFID := 0 })] : List (Tag × TMsg)).map fun r => r.2.packet r.1).flatten)] := by
  refine ⟨?_, ?_, ?_⟩
  · intro h; cases h
  · intro s hs; cases hs with
    | head => intro h; cases h
    | tail _ h => cases h
  · intro a b hab hb
    cases a with
    | nil => left; unfold frames; rfl
    | cons y a =>
      cases a with
      | nil => cases hab; exact absurd rfl hb
      | cons z a => cases hab

end Ninep
