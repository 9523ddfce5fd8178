import Verif.Server.Race

set_option linter.unusedSimpArgs false
set_option linter.unusedVariables false

/-! C119: the goroutines of a server do not race -/

namespace Ninep.Listen

/-- Of two accesses to the same location, one of them a write, the earlier one happened before the later one. -/
def LRaceFree (log : List LAccess) : Prop :=
  ∀ (i j : Nat) (a b : LAccess), i < j → log[i]? = some a → log[j]? = some b → a.loc = b.loc →
    (a.write = true ∨ b.write = true) → b.past i

/-- the accesses to `l`, or only the writes, are all in `P` -/
def LCov (G : LGhost) (P : LPast) (l : LLoc) (all : Bool) : Prop :=
  ∀ (i : Nat) (a : LAccess), G.log[i]? = some a → a.loc = l → (all = true ∨ a.write = true) → P i

theorem LCov.mono {G : LGhost} {P Q : LPast} {l : LLoc} {all : Bool} (h : LCov G P l all) (hs : ∀ i, P i → Q i) : LCov G Q l all :=
  fun i a h1 h2 h3 => hs i (h i a h1 h2 h3)

theorem LCov.weak {G : LGhost} {P : LPast} {l : LLoc} {all : Bool} (h : LCov G P l true) : LCov G P l all :=
  fun i a h1 h2 _ => h i a h1 h2 (.inl rfl)

theorem llog_access {G : LGhost} {g : LGor} {l : LLoc} {w : Bool} {i : Nat} {a : LAccess}
    (h : (G.access g l w).log[i]? = some a) : G.log[i]? = some a ∨ (i = G.log.length ∧ a = ⟨g, l, w, G.know g⟩) := by
  simp only [LGhost.access] at h
  rcases Nat.lt_trichotomy i G.log.length with hi | hi | hi
  · rw [List.getElem?_append_left hi] at h; exact .inl h
  · rw [hi, List.getElem?_append_right (Nat.le_refl _)] at h
    simp at h
    exact .inr ⟨hi, h.symm⟩
  · rw [List.getElem?_eq_none (by simp; omega)] at h; simp at h

theorem lknow_access {G : LGhost} {g g' : LGor} {l : LLoc} {w : Bool} {i : Nat} (h : G.know g' i) :
    (G.access g l w).know g' i := by
  simp only [LGhost.access]
  split
  · subst g'; exact .inl h
  · exact h

theorem lknow_new (G : LGhost) (g : LGor) (l : LLoc) (w : Bool) : (G.access g l w).know g G.log.length := by
  simp [LGhost.access]

theorem lknow_learn {G : LGhost} {g g' : LGor} {Q : LPast} {i : Nat} (h : G.know g' i) : (G.learn g Q).know g' i := by
  simp only [LGhost.learn]
  split
  · subst g'; exact .inl h
  · exact h

theorem lknow_learnt {G : LGhost} {g : LGor} {Q : LPast} {i : Nat} (h : Q i) : (G.learn g Q).know g i := by
  simp [LGhost.learn, h]

theorem lcov_other {G : LGhost} {g : LGor} {l l' : LLoc} {w all : Bool} {P : LPast} (h : LCov G P l all)
    (hne : l' ≠ l ∨ (all = false ∧ w = false)) : LCov (G.access g l' w) P l all := by
  intro i a h1 h2 h3
  rcases llog_access h1 with h1 | ⟨-, rfl⟩
  · exact h i a h1 h2 h3
  · rcases hne with hne | ⟨rfl, rfl⟩
    · exact absurd h2 hne
    · simp at h3

theorem lcov_self {G : LGhost} {g : LGor} {l l' : LLoc} {w all : Bool} {P P' : LPast} (h : LCov G P l all)
    (hs : ∀ i, P i → P' i) (hn : P' G.log.length) : LCov (G.access g l' w) P' l all := by
  intro i a h1 h2 h3
  rcases llog_access h1 with h1 | ⟨rfl, -⟩
  · exact hs i (h i a h1 h2 h3)
  · exact hn

structure LHInv (G : LGhost) (N : Nat) : Prop where
  config : ∀ g, G.has g → LCov G (G.know (.user g)) .config false
  cconfig : ∀ k, k < G.nconn → LCov G (G.know (.conn k)) .config false
  mu : LCov G G.mu .listeners true
  conn : ∀ k, k < G.nconn → LCov G (G.know (.conn k)) (.conn k) true
  fresh : ∀ k, N ≤ k → LCov G (fun _ => False) (.conn k) true
  by_ : ∀ (i g : Nat), G.by_[i]? = some g → G.has g
  free : LRaceFree G.log

theorem lrace_access {G : LGhost} {g : LGor} {l : LLoc} {w : Bool} (h : LRaceFree G.log) (hw : LCov G (G.know g) l w) :
    LRaceFree (G.access g l w).log := by
  intro i j a b hij h1 h2 hl hwr
  rcases llog_access h2 with h2' | ⟨rfl, rfl⟩
  · rcases llog_access h1 with h1' | ⟨rfl, -⟩
    · exact h i j a b hij h1' h2' hl hwr
    · have : j < G.log.length := by
        rcases Nat.lt_or_ge j G.log.length with h' | h'
        · exact h'
        · rw [List.getElem?_eq_none h'] at h2'; simp at h2'
      omega
  · rcases llog_access h1 with h1' | ⟨rfl, -⟩
    · simp only at hl hwr ⊢
      exact hw i a h1' hl hwr.symm
    · omega

/-- a goroutine reads the options -/
theorem LHInv.readConfig {G : LGhost} {N : Nat} (h : LHInv G N) (g : LGor) (hg : LCov G (G.know g) .config false) :
    LHInv (G.access g .config false) N where
  config := fun g' hg' => (lcov_other (h.config g' hg') (.inr ⟨rfl, rfl⟩)).mono fun _ => lknow_access
  cconfig := fun k hk => (lcov_other (h.cconfig k hk) (.inr ⟨rfl, rfl⟩)).mono fun _ => lknow_access
  mu := lcov_other h.mu (.inl (by simp))
  conn := fun k hk => (lcov_other (h.conn k hk) (.inl (by simp))).mono fun _ => lknow_access
  fresh := fun k hk => lcov_other (h.fresh k hk) (.inl (by simp))
  by_ := h.by_
  free := lrace_access h.free hg

theorem LHInv.learn {G : LGhost} {N : Nat} (h : LHInv G N) (g : LGor) (Q : LPast) : LHInv (G.learn g Q) N where
  config := fun g' hg' => LCov.mono (G := G) (h.config g' hg') fun _ => lknow_learn
  cconfig := fun k hk => LCov.mono (G := G) (h.cconfig k hk) fun _ => lknow_learn
  mu := h.mu
  conn := fun k hk => LCov.mono (G := G) (h.conn k hk) fun _ => lknow_learn
  fresh := h.fresh
  by_ := h.by_
  free := h.free

theorem LHInv.locked {G : LGhost} {N : Nat} (h : LHInv G N) (g : LGor) : LHInv (G.locked g) N := by
  have h1 := h.learn g G.mu
  have hc : LCov (G.learn g G.mu) ((G.learn g G.mu).know g) .listeners true := LCov.mono (G := G) h.mu fun _ => lknow_learnt
  exact {
    config := fun g' hg' => LCov.mono (G := (G.learn g G.mu).access g .listeners true) (lcov_other (h1.config g' hg') (.inl (by simp)))
      fun _ => lknow_access (l := .listeners) (w := true)
    cconfig := fun k hk => LCov.mono (G := (G.learn g G.mu).access g .listeners true) (lcov_other (h1.cconfig k hk) (.inl (by simp)))
      fun _ => lknow_access (l := .listeners) (w := true)
    mu := lcov_self (g := g) (l' := .listeners) (w := true) hc (fun _ => lknow_access (l := .listeners) (w := true)) (lknow_new _ g .listeners true)
    conn := fun k hk => LCov.mono (G := (G.learn g G.mu).access g .listeners true) (lcov_other (h1.conn k hk) (.inl (by simp)))
      fun _ => lknow_access (l := .listeners) (w := true)
    fresh := fun k hk => lcov_other (g := g) (l' := .listeners) (w := true) (h1.fresh k hk) (.inl (by simp))
    by_ := h1.by_
    free := lrace_access (g := g) (l := .listeners) (w := true) h1.free hc }

theorem LHInv.accepted {G : LGhost} (h : LHInv G G.nconn) (g : Nat) (hg : G.has g) :
    LHInv (G.accepted g) (G.accepted g).nconn := by
  have h1 := h.readConfig (.user g) (h.config g hg)
  have hf := h1.fresh G.nconn (Nat.le_refl _)
  have hc1 := h1.config g hg
  have hn : (G.access (.user g) .config false).nconn = G.nconn := rfl
  have e : G.accepted g = { (((G.access (.user g) .config false).access (.user g) (.conn (G.access (.user g) .config false).nconn) true).learn
      (.conn (G.access (.user g) .config false).nconn)
      (((G.access (.user g) .config false).access (.user g) (.conn (G.access (.user g) .config false).nconn) true).know (.user g)))
        with nconn := (G.access (.user g) .config false).nconn + 1 } := rfl
  rw [e]
  rw [← hn] at h1 hf
  have hg1 : (G.access (.user g) .config false).has g := hg
  generalize G.access (.user g) .config false = G1 at *
  have hcc : LCov (G1.access (.user g) (.conn G1.nconn) true) ((G1.access (.user g) (.conn G1.nconn) true).know (.user g)) (.conn G1.nconn) true :=
    lcov_self hf (fun _ h => h.elim) (lknow_new ..)
  have hcg : LCov (G1.access (.user g) (.conn G1.nconn) true) ((G1.access (.user g) (.conn G1.nconn) true).know (.user g)) .config false :=
    (lcov_other hc1 (.inl (by simp))).mono fun _ => lknow_access
  have hfree := lrace_access (g := .user g) (l := .conn G1.nconn) (w := true) h1.free (hf.mono fun _ h => h.elim)
  have hconf : ∀ g', G1.has g' → LCov (G1.access (.user g) (.conn G1.nconn) true) ((G1.access (.user g) (.conn G1.nconn) true).know (.user g')) .config false :=
    fun g' hg' => (lcov_other (h1.config g' hg') (.inl (by simp))).mono fun _ => lknow_access
  have hcconf : ∀ k, k < G1.nconn → LCov (G1.access (.user g) (.conn G1.nconn) true) ((G1.access (.user g) (.conn G1.nconn) true).know (.conn k)) .config false :=
    fun k hk => (lcov_other (h1.cconfig k hk) (.inl (by simp))).mono fun _ => lknow_access
  have hmu : LCov (G1.access (.user g) (.conn G1.nconn) true) G1.mu .listeners true := lcov_other h1.mu (.inl (by simp))
  have hconn : ∀ k, k < G1.nconn → LCov (G1.access (.user g) (.conn G1.nconn) true) ((G1.access (.user g) (.conn G1.nconn) true).know (.conn k)) (.conn k) true :=
    fun k hk => (lcov_other (h1.conn k hk) (.inl (by simp; omega))).mono fun _ => lknow_access
  have hfresh : ∀ k, G1.nconn + 1 ≤ k → LCov (G1.access (.user g) (.conn G1.nconn) true) (fun _ => False) (.conn k) true :=
    fun k hk => lcov_other (h1.fresh k (by omega)) (.inl (by simp; omega))
  have hby : ∀ (i g' : Nat), (G1.access (.user g) (.conn G1.nconn) true).by_[i]? = some g' → (G1.access (.user g) (.conn G1.nconn) true).has g' := h1.by_
  have hhas : (G1.access (.user g) (.conn G1.nconn) true).has = G1.has := rfl
  have hmu' : (G1.access (.user g) (.conn G1.nconn) true).mu = G1.mu := rfl
  rw [← hhas] at hconf
  rw [← hmu'] at hmu
  generalize G1.access (.user g) (.conn G1.nconn) true = G2 at *
  exact {
    config := fun g' hg' => LCov.mono (G := G2) (hconf g' hg') fun _ h => lknow_learn (G := G2) (g := .conn G1.nconn) (Q := G2.know (.user g)) h
    cconfig := fun k hk => by
      by_cases e : k = G1.nconn
      · subst e
        exact LCov.mono (G := G2) hcg fun _ h => lknow_learnt (G := G2) (g := .conn G1.nconn) (Q := G2.know (.user g)) h
      · exact LCov.mono (G := G2) (hcconf k (by simp only at hk; omega)) fun _ h => lknow_learn (G := G2) (g := .conn G1.nconn) (Q := G2.know (.user g)) h
    mu := hmu
    conn := fun k hk => by
      by_cases e : k = G1.nconn
      · subst e
        exact LCov.mono (G := G2) hcc fun _ h => lknow_learnt (G := G2) (g := .conn G1.nconn) (Q := G2.know (.user g)) h
      · exact LCov.mono (G := G2) (hconn k (by simp only at hk; omega)) fun _ h => lknow_learn (G := G2) (g := .conn G1.nconn) (Q := G2.know (.user g)) h
    fresh := hfresh
    by_ := hby
    free := hfree }

theorem lhinv_step {x y : Sys × LGhost} (hs : LRStep x y) (h : LHInv x.2 x.2.nconn) : LHInv y.2 y.2.nconn := by
  cases hs with
  | pass s G g g' hg =>
    have h1 := LHInv.learn h (.user g') (G.know (.user g))
    refine ⟨?_, h1.cconfig, h1.mu, h1.conn, h1.fresh, fun i g'' e => .inr (h1.by_ i g'' e), h1.free⟩
    rintro g'' (rfl | hg'')
    · exact LCov.mono (G := G) (h.config g hg) fun _ => lknow_learnt (G := G)
    · exact h1.config g'' hg''
  | call s G g ln hg hfree =>
    refine ⟨h.config, h.cconfig, h.mu, h.conn, h.fresh, ?_, h.free⟩
    intro i g' e
    simp only at e
    rcases Nat.lt_trichotomy i G.by_.length with hi | hi | hi
    · rw [List.getElem?_append_left hi] at e
      exact h.by_ i g' e
    · rw [hi, List.getElem?_append_right (Nat.le_refl _)] at e
      simp at e
      exact e ▸ hg
    · rw [List.getElem?_eq_none (by simp; omega)] at e
      simp at e
  | track s G i g c h1 h2 h3 => exact LHInv.locked h _
  | accept s G i g c d a h1 h2 h3 =>
    cases a with
    | conn k => exact LHInv.accepted h g (h.by_ i g h3)
    | temporary e => exact LHInv.readConfig h _ (h.config g (h.by_ i g h3))
    | permanent e => exact h
  | wake s G i c d h1 h2 => exact h
  | untrack s G i g c e h1 h2 h3 => exact LHInv.locked h _
  | close s G i c e h1 h2 => exact h
  | shutdown s G g close order h1 h2 h3 => exact LHInv.locked h _
  | direct s G g h1 h2 => exact LHInv.accepted h g h1
  | serve s G k w hk =>
    have h1 := LHInv.readConfig h (.conn k) (h.cconfig k hk)
    have hc := h1.conn k hk
    exact {
      config := fun g' hg' => (lcov_other (h1.config g' hg') (.inl (by simp))).mono fun _ => lknow_access
      cconfig := fun k' hk' => (lcov_other (h1.cconfig k' hk') (.inl (by simp))).mono fun _ => lknow_access
      mu := lcov_other h1.mu (.inl (by simp))
      conn := fun k' hk' => by
        by_cases e : k' = k
        · subst e
          exact lcov_self hc (fun _ => lknow_access) (lknow_new ..)
        · exact (lcov_other (h1.conn k' hk') (.inl (by simp; exact fun h => e h.symm))).mono fun _ => lknow_access
      fresh := fun k' hk' => lcov_other (h1.fresh k' hk') (.inl (by
        have : k' ≠ k := by
          rintro rfl
          have : G.nconn ≤ k' := hk'
          omega
        simp; exact fun h => this h.symm))
      by_ := h1.by_
      free := lrace_access h1.free (LCov.weak hc) }

theorem lhinv_start : LHInv .start 0 where
  config := by
    intro g hg i a h1 h2 h3
    cases hg
    simp only [LGhost.start] at h1 ⊢
    cases i with
    | zero => simp
    | succ n => simp at h1
  cconfig := fun k hk => by simp [LGhost.start] at hk
  mu := by
    intro i a h1 h2 h3
    simp only [LGhost.start] at h1
    cases i with
    | zero => simp at h1; subst h1; simp at h2
    | succ n => simp at h1
  conn := fun k hk => by simp [LGhost.start] at hk
  fresh := by
    intro k _ i a h1 h2 h3
    simp only [LGhost.start] at h1
    cases i with
    | zero => simp at h1; subst h1; simp at h2
    | succ n => simp at h1
  by_ := fun i g h => by simp [LGhost.start] at h
  free := by
    intro i j a b hij h1 h2
    simp only [LGhost.start] at h2
    cases j with
    | zero => omega
    | succ n => simp at h2

theorem lhinv_exec {x : Sys × LGhost} (h : LRExec x) : LHInv x.2 x.2.nconn := by
  induction h with
  | init => exact lhinv_start
  | step _ hs ih => exact lhinv_step hs ih

/-- **C119** Whatever the goroutines of a program do with a listener that they have got from the one that made it, with any number of
listeners, connections and calls of `Shutdown`: of two accesses to the options, to `l.listeners` or to the objects of a connection, one of
them a write, the first happened before the second in the sense of the Go memory model. -/
theorem C119_no_races {s : Sys} {G : LGhost} (h : LRExec (s, G)) : LRaceFree G.log := (lhinv_exec h).free

/-! ### the record does not change what the server does -/

theorem lrace_base {x y : Sys × LGhost} (h : LRStep x y) : Step x.1 y.1 ∨ y.1 = x.1 := by
  cases h with
  | pass => exact .inr rfl
  | call s G g ln h1 h2 => exact .inl (.call s ln)
  | track s G i g c h1 h2 h3 => exact .inl (.track s i c h1 h2)
  | accept s G i g c d a h1 h2 h3 => exact .inl (.accept s i c d a h1 h2)
  | wake s G i c d h1 h2 => exact .inl (.wake s i c d h1 h2)
  | untrack s G i g c e h1 h2 h3 => exact .inl (.untrack s i c e h1 h2)
  | close s G i c e h1 h2 => exact .inl (.close s i c e h1 h2)
  | shutdown s G g close order h1 h2 h3 => exact .inl (.shutdown s close order h1)
  | direct => exact .inr rfl
  | serve => exact .inr rfl

/-- The states of the executions with a record are those without. -/
theorem C119_same {s : Sys} {G : LGhost} (h : LRExec (s, G)) : Reachable s := by
  generalize hx : (s, G) = x at h
  have : Reachable x.1 := by
    clear hx
    induction h with
    | init => exact .init
    | step _ hs ih =>
      rcases lrace_base hs with h1 | h1
      · exact .step ih h1
      · rw [h1]; exact ih
  rw [← hx] at this
  exact this

/-- Every state that a server can reach it reaches in an execution with a record: with a goroutine for every call. -/
theorem C119_every {s : Sys} (h : Reachable s) : ∃ G, LRExec (s, G) := by
  suffices ∃ G, LRExec (s, G) ∧ G.by_ = (List.range s.calls.length).map (· + 1) ∧ G.has 0 by
    obtain ⟨G, h1, -⟩ := this
    exact ⟨G, h1⟩
  have hget : ∀ (n i : Nat), i < n → ((List.range n).map (· + 1))[i]? = some (i + 1) := by
    intro n i hi
    simp [hi]
  have hlt : ∀ {s : Sys} {i : Nat} {c : Serving}, s.calls[i]? = some c → i < s.calls.length := by
    intro s i c h
    rcases Nat.lt_or_ge i s.calls.length with h' | h'
    · exact h'
    · rw [List.getElem?_eq_none h'] at h; simp at h
  have h0 : ∀ {s : Sys} {G : LGhost}, G.by_ = (List.range s.calls.length).map (· + 1) →
      ∀ (i : Nat) (c : Serving), G.by_[i]? = some 0 → s.calls[i]? = some c → ∃ e, c.pc = .returned e := by
    intro s G hby i c h1 h2
    rw [hby, hget _ _ (hlt h2)] at h1
    simp at h1
  induction h with
  | init => exact ⟨_, .init, rfl, rfl⟩
  | @step s s' hr hs ih =>
    obtain ⟨G, h1, h2, h3⟩ := ih
    cases hs with
    | call ln =>
      have e1 := LRExec.step h1 (.pass _ _ 0 (s.calls.length + 1) h3)
      refine ⟨_, .step e1 (.call _ _ (s.calls.length + 1) ln (.inl rfl) ?_), ?_, .inr h3⟩
      · intro i c h4 h5
        simp only [LGhost.learn, h2] at h4
        rw [hget _ _ (hlt h5)] at h4
        have := hlt h5
        simp at h4
        omega
      · simp only [LGhost.learn, h2, List.length_append, List.length_cons, List.length_nil, Nat.zero_add, List.range_succ, List.map_append,
          List.map_cons, List.map_nil]
    | track i c h4 h5 =>
      exact ⟨_, .step h1 (.track _ G i (i + 1) c h4 h5 (by rw [h2, hget _ _ (hlt h4)])), by simp [LGhost.locked, LGhost.access, LGhost.learn, h2, Sys.upd], h3⟩
    | accept i c d a h4 h5 =>
      refine ⟨_, .step h1 (.accept _ G i (i + 1) c d a h4 h5 (by rw [h2, hget _ _ (hlt h4)])), ?_, ?_⟩
      · cases a <;> simp [LGhost.acceptReturns, LGhost.accepted, LGhost.access, LGhost.learn, h2, Sys.upd]
      · cases a <;> exact h3
    | wake i c d h4 h5 => exact ⟨_, .step h1 (.wake _ G i c d h4 h5), by simp [h2, Sys.upd], h3⟩
    | untrack i c e h4 h5 =>
      exact ⟨_, .step h1 (.untrack _ G i (i + 1) c e h4 h5 (by rw [h2, hget _ _ (hlt h4)])), by simp [LGhost.locked, LGhost.access, LGhost.learn, h2, Sys.upd], h3⟩
    | close i c e h4 h5 => exact ⟨_, .step h1 (.close _ G i c e h4 h5), by simp [h2, Sys.upd], h3⟩
    | shutdown close order h4 =>
      exact ⟨_, .step h1 (.shutdown _ G 0 close order h4 h3 (h0 h2)), by simp [LGhost.locked, LGhost.access, LGhost.learn, h2], h3⟩

/-- C119: one goroutine serves a listener and accepts a connection, another one shuts it down; both write to `l.listeners` -/
example : ∃ s G, LRExec (s, G) ∧ (G.log.map fun a => (a.who, a.loc, a.write)) =
    [(.user 0, .config, true), (.user 1, .listeners, true), (.user 1, .config, false), (.user 1, .conn 0, true),
     (.conn 0, .config, false), (.conn 0, .conn 0, true), (.user 0, .listeners, true)] := by
  have e1 := LRExec.step .init (.pass _ _ 0 1 rfl)
  have e2 := LRExec.step e1 (.call _ _ 1 7 (.inl rfl) (fun i c h => by simp [LGhost.start, LGhost.learn] at h))
  have e3 := LRExec.step e2 (.track _ _ 0 1 _ rfl rfl rfl)
  have e4 := LRExec.step e3 (.accept _ _ 0 1 _ 0 (.conn 5) rfl rfl rfl)
  have e5 := LRExec.step e4 (.serve _ _ 0 true (by simp [LGhost.acceptReturns, LGhost.accepted]))
  have e6 := LRExec.step e5 (.shutdown _ _ 0 (fun _ => none) [7] (.refl _) (.inr rfl) (fun i c h1 h2 => by
    cases i with
    | zero => simp [LGhost.start, LGhost.learn, LGhost.acceptReturns, LGhost.accepted, LGhost.access, LGhost.locked] at h1
    | succ n => simp [LGhost.start, LGhost.learn, LGhost.acceptReturns, LGhost.accepted, LGhost.access, LGhost.locked] at h1))
  exact ⟨_, _, e6, rfl⟩

end Ninep.Listen
