import Verif.Client.New

set_option linter.unusedVariables false

/-!
# Making clients, listeners and file servers (C103)
-/

namespace Ninep.Make
open Spec
variable {σ ν τ H : Type}

/-- the options are applied in this order, and none of them fails -/
inductive Applied : List (Opt σ) → σ → σ → Prop
  | nil (c : σ) : Applied [] c c
  | cons {o : Opt σ} {os : List (Opt σ)} {c c' c'' : σ} : o c = (c', none) → Applied os c' c'' → Applied (o :: os) c c''

/-- the first option that fails returns `e`; those before it have been applied, those after it have not been called -/
def FailsWith (opts : List (Opt σ)) (c : σ) (e : GoString) : Prop :=
  ∃ before o after c', opts = before ++ o :: after ∧ Applied before c c' ∧ (o c').2 = some e

theorem applyOpts_ok {opts : List (Opt σ)} {c c' : σ} : applyOpts opts c = .ok c' ↔ Applied opts c c' := by
  induction opts generalizing c with
  | nil =>
    constructor
    · intro h; cases h; exact .nil _
    · intro h; cases h; rfl
  | cons o os ih =>
    unfold applyOpts
    constructor
    · intro h
      split at h
      · cases h
      · rename_i c1 hc; exact .cons hc (ih.1 h)
    · intro h
      cases h with
      | cons h1 h2 => rw [h1]; exact ih.2 h2

theorem applyOpts_error {opts : List (Opt σ)} {c : σ} {e : GoString} : applyOpts opts c = .error e ↔ FailsWith opts c e := by
  induction opts generalizing c with
  | nil =>
    constructor
    · intro h; cases h
    · rintro ⟨b, o, a, c', h, -⟩; cases b <;> cases h
  | cons o os ih =>
    unfold applyOpts
    constructor
    · intro h
      split at h
      · rename_i c1 e1 hc; cases h; exact ⟨[], o, os, c, rfl, .nil _, by rw [hc]⟩
      · rename_i c1 hc
        obtain ⟨b, o', a, c', h1, h2, h3⟩ := ih.1 h
        exact ⟨o :: b, o', a, c', by rw [h1]; rfl, .cons hc h2, h3⟩
    · rintro ⟨b, o', a, c', h1, h2, h3⟩
      cases h2 with
      | nil =>
        cases h1
        split
        · rename_i hc; rw [hc] at h3; cases h3; rfl
        · rename_i hc; rw [hc] at h3; cases h3
      | cons h4 h5 =>
        cases h1
        rw [h4]
        exact ih.2 ⟨_, o', a, c', rfl, h5, h3⟩

theorem fill {n : Nat} (k : Nat) {c : Chan Tag} (h : c.queue.length + n ≤ c.cap) :
    (List.range' k n).foldlM (fun c i => c.send (UInt16.ofNat i)) c = some { c with queue := c.queue ++ (List.range' k n).map UInt16.ofNat } := by
  induction n generalizing k c with
  | zero => simp
  | succ n ih =>
    rw [List.range'_succ, List.foldlM_cons]
    have : c.send (UInt16.ofNat k) = some { c with queue := c.queue ++ [UInt16.ofNat k] } := by
      unfold Chan.send; rw [if_pos (by omega)]
    rw [this]
    show List.foldlM _ _ _ = _
    rw [ih]
    · simp
    · simp only [List.length_append, List.length_singleton]; omega

/-- the tags that calls can have, each once -/
def allTags : List Tag := (List.range' 1 65534).map UInt16.ofNat

theorem fillTags_eq : fillTags = some { cap := 65534, queue := allTags } := by
  unfold fillTags
  rw [show NOTAG.toNat - 1 = 65534 from rfl, fill 1 (show ([] : List Tag).length + 65534 ≤ NumTags from Nat.le_refl _), List.nil_append]
  rfl

/-- a client before its options -/
def blank : Client ν τ := { Tags := some { cap := 65534, queue := allTags }, FID := 1, RPC := List.replicate 65534 none }

theorem newClient_eq (opts : List (Opt (Client ν τ))) : newClient opts = some (finish (applyOpts opts blank)) := by
  unfold newClient
  rw [fillTags_eq, Option.map_some]
  unfold blank NumTags
  with_reducible rfl

/-- **C103** `NewClient` returns. -/
theorem C103_returns (opts : List (Opt (Client ν τ))) : ∃ r, newClient opts = some r := ⟨_, newClient_eq opts⟩

/-- **C103** The tags that a new client has are all but 0 and NOTAG, each once, as many as there are slots. -/
theorem C103_tags : (∀ t, t ∈ allTags ↔ t ≠ 0 ∧ t ≠ NOTAG) ∧ allTags.Nodup ∧ allTags.length = 65534 := by
  refine ⟨fun t => ?_, ?_, by rw [allTags, List.length_map, List.length_range']⟩
  · unfold allTags
    rw [List.mem_map]
    constructor
    · rintro ⟨i, hi, rfl⟩
      rw [List.mem_range'_1] at hi
      have : (UInt16.ofNat i).toNat = i := by rw [UInt16.toNat_ofNat']; omega
      constructor
      · intro h; rw [h] at this; have : (0 : Nat) = i := this; omega
      · intro h; rw [h] at this; have : (65535 : Nat) = i := this; omega
    · rintro ⟨h1, h2⟩
      refine ⟨t.toNat, ?_, by simp⟩
      rw [List.mem_range'_1]
      have h3 := t.toNat_lt
      have h4 : t.toNat ≠ 0 := fun h => h1 (UInt16.toNat_inj.1 h)
      have h5 : t.toNat ≠ 65535 := fun h => h2 (UInt16.toNat_inj.1 h)
      omega
  · unfold allTags
    rw [List.nodup_iff_pairwise_ne, List.pairwise_map]
    refine List.Pairwise.imp_of_mem ?_ (List.nodup_range' (step := 1) (h := by decide))
    intro a b ha hb hab h
    rw [List.mem_range'_1] at ha hb
    have := congrArg UInt16.toNat h
    rw [UInt16.toNat_ofNat', UInt16.toNat_ofNat'] at this
    omega

/-- **C103** It makes a client exactly if no option fails.  The options are applied in order to a client that has all its tags and slots
but no goroutine; the two goroutines and the channels to them come afterwards. -/
theorem C103_made (opts : List (Opt (Client ν τ))) (c : Client ν τ) (k : Nat) :
    newClient opts = some ⟨.ok c, k⟩ ↔ k = 2 ∧ ∃ c', Applied opts blank c' ∧ c = { c' with FromClient := some 65534, FromServer := some 0 } := by
  rw [newClient_eq, Option.some.injEq]
  constructor
  · intro h
    cases hc : applyOpts opts blank with
    | error e => rw [hc] at h; cases h
    | ok c' =>
      rw [hc] at h
      cases h
      exact ⟨rfl, c', applyOpts_ok.1 hc, rfl⟩
  · rintro ⟨rfl, c', h, rfl⟩
    rw [applyOpts_ok.2 h]
    rfl

/-- **C103** If an option fails, its error is returned, no option after it is called, and no goroutine is started. -/
theorem C103_fails (opts : List (Opt (Client ν τ))) (e : GoString) (k : Nat) :
    newClient opts = some ⟨.error e, k⟩ ↔ k = 0 ∧ FailsWith opts blank e := by
  rw [newClient_eq, Option.some.injEq]
  constructor
  · intro h
    cases hc : applyOpts opts blank with
    | error e =>
      rw [hc] at h
      cases h
      exact ⟨rfl, applyOpts_error.1 hc⟩
    | ok c' => rw [hc] at h; cases h
  · rintro ⟨rfl, h⟩
    rw [applyOpts_error.2 h]
    rfl

/-- **C103** If the options only set the connection, `Msize` and the trace function, the client starts as the model of clients does
(`Client.init`): with these tags, in this order, and no call in any slot. -/
theorem C103_init (opts : List (Opt (Client ν τ))) (ho : ∀ o ∈ opts, ∀ c, (o c).1.Tags = c.Tags ∧ (o c).1.RPC = c.RPC ∧ (o c).1.FID = c.FID)
    (c : Client ν τ) (k : Nat) (h : newClient opts = some ⟨.ok c, k⟩) :
    c.Tags = some { cap := NumTags, queue := Ninep.Client.init.tags } ∧ c.RPC.length = NumTags ∧
      (∀ i, c.RPC.getD i none = Ninep.Client.init.rpc i) ∧ c.FID = 1 := by
  obtain ⟨-, c', h1, rfl⟩ := (C103_made _ _ _).1 h
  have : ∀ {os : List (Opt (Client ν τ))} {a b : Client ν τ}, Applied os a b → (∀ o ∈ os, o ∈ opts) → b.Tags = a.Tags ∧ b.RPC = a.RPC ∧ b.FID = a.FID := by
    intro os a b h hm
    induction h with
    | nil => exact ⟨rfl, rfl, rfl⟩
    | @cons o os c c' c'' h1 h2 ih =>
      have h3 := ho o (hm o (by simp)) c
      rw [h1] at h3
      obtain ⟨h4, h5, h6⟩ := ih fun o h => hm o (by simp [h])
      exact ⟨h4.trans h3.1, h5.trans h3.2.1, h6.trans h3.2.2⟩
  obtain ⟨h2, h3, h4⟩ := this h1 fun _ h => h
  have h5 : Ninep.Client.init.tags = allTags := by
    unfold Ninep.Client.init
    rw [show NOTAG.toNat - 1 = 65534 from rfl, allTags, List.range'_eq_map_range, List.map_map]
    apply List.map_congr_left
    intro i _
    simp only [Function.comp_apply, Nat.add_comm]
  refine ⟨?_, ?_, fun i => ?_, h4⟩
  · rw [h5]; exact h2
  · show c'.RPC.length = _; rw [h3]; exact List.length_replicate
  · show c'.RPC.getD i none = none
    rw [h3]
    by_cases hi : i < 65534
    · rw [List.getD_eq_getElem?_getD, show (blank : Client ν τ).RPC = List.replicate 65534 none from rfl, List.getElem?_replicate, if_pos hi]; rfl
    · rw [List.getD_eq_getElem?_getD, show (blank : Client ν τ).RPC = List.replicate 65534 none from rfl, List.getElem?_replicate, if_neg hi]; rfl

/-- **C103** `NewListener` does the same with its options, and starts nothing. -/
theorem C103_listener {ns : Type} (f : Unit → ns) (opts : List (Opt (Listener ns τ))) :
    (newListener f opts).goroutines = 0 ∧
      (∀ l, (newListener f opts).ret = .ok l ↔ Applied opts { nsCreator := f } l) ∧
      ∀ e, (newListener f opts).ret = .error e ↔ FailsWith opts { nsCreator := f } e :=
  ⟨rfl, fun _ => applyOpts_ok, fun _ => applyOpts_error⟩

/-- **C103** Whatever the options of `NewUFS`, if they leave the creator alone: each connection gets a file server of its own without fids, with
the root of the flag and the IOunit 8192, in the wrapper that logs if and only if the flag `debug` is not 0. -/
theorem C103_ufs (root : GoString) (debug : Int) (opts : List (Opt (Listener (Created H) τ))) (ho : ∀ o ∈ opts, ∀ l, (o l).1.nsCreator = l.nsCreator)
    (l : Listener (Created H) τ) (h : (newUFS root debug opts).ret = .ok l) :
    ∃ f : Ufs.Obj H, l.nsCreator () = (if debug = 0 then .plain f else .debug f) ∧ (∀ i, f.files i = none) ∧ f.rootPath = root ∧ f.IOunit = 8192 ∧
      f.Versioned = false := by
  have : ∀ {os : List (Opt (Listener (Created H) τ))} {a b : Listener (Created H) τ}, Applied os a b → (∀ o ∈ os, o ∈ opts) → b.nsCreator = a.nsCreator := by
    intro os a b h hm
    induction h with
    | nil => rfl
    | @cons o os c c' c'' h1 h2 ih =>
      have h3 := ho o (hm o (by simp)) c
      rw [h1] at h3
      exact (ih fun o h => hm o (by simp [h])).trans h3
  refine ⟨Ufs.newObj root, ?_, fun _ => rfl, rfl, rfl, rfl⟩
  rw [this (applyOpts_ok.1 h) fun _ h => h]
  show nsCreator root debug () = _
  unfold nsCreator
  by_cases hd : debug = 0
  · rw [if_pos hd, if_neg (fun h => h hd)]
  · rw [if_neg hd, if_pos hd]

/-- **C103** The program serves with such a listener or ends at once because it cannot listen; although `main` does not look at the error of
`NewUFS`, it never calls `Serve` with a nil pointer. -/
theorem C103_start (root : GoString) (debug : Int) (listenFails : Bool) :
    (start (H := H) (τ := τ) root debug listenFails = .fatal ↔ listenFails = true) ∧
      (listenFails = false → ∃ l, start (H := H) (τ := τ) root debug listenFails = .serve l ∧ l.Trace = none ∧ l.listeners = [] ∧
        (newUFS (H := H) (τ := τ) root debug [fun l => ({ l with Trace := none }, none)]).ret = .ok l) := by
  cases listenFails with
  | true => exact ⟨⟨fun _ => rfl, fun _ => rfl⟩, nofun⟩
  | false => exact ⟨⟨nofun, nofun⟩, fun _ => ⟨_, rfl, rfl, rfl, rfl⟩⟩

/-- C103: a client with a connection, and one whose second option fails -/
example : (∃ c k, newClient (ν := Nat) (τ := Nat) [fun c => ({ c with ToNet := some 7, FromNet := some 7 }, none), fun c => ({ c with Msize := 8192 }, none)] =
      some ⟨.ok c, k⟩ ∧ c.ToNet = some 7 ∧ c.Msize = 8192) ∧
    (∀ o ∈ ([fun c => ({ c with ToNet := some 7, FromNet := some 7 }, none), fun c => ({ c with Msize := 8192 }, none)] : List (Opt (Client Nat Nat))),
      ∀ c, (o c).1.Tags = c.Tags ∧ (o c).1.RPC = c.RPC ∧ (o c).1.FID = c.FID) ∧
    newClient (ν := Nat) (τ := Nat) [fun c => ({ c with ToNet := some 7 }, none), fun c => (c, some (lit "no")), fun c => (c, some (lit "never"))] =
      some ⟨.error (lit "no"), 0⟩ := by
  refine ⟨⟨_, _, (C103_made _ _ _).2 ⟨rfl, _, .cons rfl (.cons rfl (.nil _)), rfl⟩, rfl, rfl⟩, ?_,
    (C103_fails _ _ _).2 ⟨rfl, [_], _, _, _, rfl, .cons rfl (.nil _), rfl⟩⟩
  intro o ho c
  rcases List.mem_cons.1 ho with rfl | ho
  · exact ⟨rfl, rfl, rfl⟩
  · cases List.mem_singleton.1 ho; exact ⟨rfl, rfl, rfl⟩

/-- C103: the listener of the program -/
example : ∃ l, (newUFS (H := Nat) (τ := Nat) [47] 1 [fun l => ({ l with Trace := none }, none)]).ret = .ok l ∧ ∃ f, l.nsCreator () = .debug f :=
  ⟨_, rfl, _, rfl⟩

end Ninep.Make
