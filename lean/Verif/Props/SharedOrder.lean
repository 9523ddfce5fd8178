import Verif.Props.Serial
/-
A shared `FileServer` without data races: calls of which one changes a fid that the other one names do not overlap, an attach overlaps
with no call that names a fid, calls of `Rversion` do not overlap with each other, and the callers order such calls by
synchronization of their own, such as a mutex or a channel.
-/

namespace Ninep.Ufs.Shared
open Spec

section
variable {ω H : Type} {user rootPath : GoString} {iounit : MaxSize} {host : Host ω H} {w0 : ω}

/-! ### The statement -/

/-- calls that set what no mutex guards: an attach stores in the table and in `root`, a version in `Versioned` (filesystem.go:63-69,
filesystem.go:82-98); other calls that name a fid look it up in the table -/
def Clash (m m' : TMsg) : Prop :=
  ((∃ q, m = .attach q) ∧ Spec.fids m' ≠ []) ∨ ((∃ q, m' = .attach q) ∧ Spec.fids m ≠ []) ∨ ((∃ q, m = .version q) ∧ ∃ q, m' = .version q)

/-- calls that clash do not overlap -/
def NoClash (ls : List (SLabel ω H)) : Prop :=
  ∀ ls1 ls2 g m, ls = ls1 ++ .begin g m :: ls2 → ∀ g' m', g' ≠ g → inCall g' ls1 = some m' → ¬ Clash m m'

/-- The call `m` that goroutine `g` is in before step `i` and the call `m'` that goroutine `g'` is in before step `j` must not
overlap: they clash, or one changes a fid that the other one names. -/
def Conflict (ls : List (SLabel ω H)) (i g : Nat) (m : TMsg) (j g' : Nat) (m' : TMsg) : Prop :=
  Clash m m' ∨ (∃ f ∈ changes g m (ls.take i) (ls.drop i), f ∈ Spec.fids m') ∨ ∃ f ∈ changes g' m' (ls.take j) (ls.drop j), f ∈ Spec.fids m

/-- what is ordered: by the Go memory model, and by the callers, who begin a call only when those are done that it must not overlap with -/
inductive Ordered (ls : List (SLabel ω H)) : Nat → Nat → Prop
  | go {i j} : Before ls i j → Ordered ls i j
  | callers {i j g g' r m m'} : i < j → ls[i]? = some (.done g r) → inCall g (ls.take i) = some m → ls[j]? = some (.begin g' m') →
      Conflict ls i g m (j + 1) g' m' → Ordered ls i j
  | trans {i j k} : Ordered ls i j → Ordered ls j k → Ordered ls i k

/-! ### Lemmas -/

theorem take_snoc {α : Type} {ls : List α} {i : Nat} {l : α} (h : ls[i]? = some l) : ls.take (i + 1) = ls.take i ++ [l] := by
  rw [List.take_add_one, h]
  rfl

theorem drop_cons {α : Type} {ls : List α} {i : Nat} {l : α} (h : ls[i]? = some l) : ls.drop i = l :: ls.drop (i + 1) := by
  obtain ⟨hi, rfl⟩ := List.getElem?_eq_some_iff.1 h
  exact List.drop_eq_getElem_cons hi

theorem take_all {α : Type} {ls : List α} {i : Nat} (h : ls[i]? = none) : ls.take (i + 1) = ls.take i := by
  rw [List.take_add_one, h]
  simp

/-- where the call has begun -/
theorem inCall_since {ls : List (SLabel ω H)} {g : Nat} {m : TMsg} {i : Nat} (h : inCall g (ls.take i) = some m) :
    ∃ b, b < i ∧ ls[b]? = some (.begin g m) ∧ ∀ k, b < k → k ≤ i → inCall g (ls.take k) = some m := by
  induction i with
  | zero => simp [inCall] at h
  | succ i ih =>
    have old : inCall g (ls.take i) = some m → ∃ b, b < i + 1 ∧ ls[b]? = some (.begin g m) ∧ ∀ k, b < k → k ≤ i + 1 → inCall g (ls.take k) = some m := by
      intro h'
      obtain ⟨b, h1, h2, h3⟩ := ih h'
      refine ⟨b, Nat.lt_succ_of_lt h1, h2, fun k hk1 hk2 => ?_⟩
      rcases Nat.lt_or_eq_of_le hk2 with e | rfl
      · exact h3 k hk1 (Nat.le_of_lt_succ e)
      · exact h
    cases hl : ls[i]? with
    | none => exact old (by rw [← take_all hl]; exact h)
    | some l =>
      have h' := h
      rw [take_snoc hl, inCall_snoc] at h'
      cases l with
      | begin g' m' =>
        dsimp only at h'
        split at h'
        · rename_i e
          subst e
          cases h'
          exact ⟨i, Nat.lt_succ_self _, hl, fun k hk1 hk2 => (by omega : k = i + 1) ▸ h⟩
        · exact old h'
      | done g' r =>
        dsimp only at h'
        split at h'
        · cases h'
        · exact old h'
      | _ => exact old h'

theorem begin_idle {ls : List (SLabel ω H)} {s : SSys ω H} (h : SRun user rootPath iounit host w0 ls s) {b g : Nat} {m : TMsg}
    (hb : ls[b]? = some (.begin g m)) : inCall g (ls.take b) = none := by
  obtain ⟨t, t', c, ht, hst⟩ := upTo h hb
  rw [inCall_run ht]
  rcases step_cases hst with ⟨_, _, e, h1, _⟩ | ⟨_, _, _, e, _⟩ | ⟨_, _, _, _, _, _, e, _⟩ | ⟨_, _, _, _, e, _⟩ | ⟨_, e, _⟩ <;> cases e
  rw [h1]
  rfl

/-- the call goes on, or ends -/
theorem inCall_until {ls : List (SLabel ω H)} {s : SSys ω H} (h : SRun user rootPath iounit host w0 ls s) {g : Nat} {m : TMsg} {i : Nat}
    (hi : inCall g (ls.take i) = some m) (n : Nat) : (∀ k, i ≤ k → k ≤ i + n → inCall g (ls.take k) = some m) ∨
      ∃ d r, i ≤ d ∧ d < i + n ∧ ls[d]? = some (.done g r) ∧ ∀ k, i ≤ k → k ≤ d → inCall g (ls.take k) = some m := by
  induction n with
  | zero => exact .inl fun k h1 h2 => (by omega : k = i) ▸ hi
  | succ n ih =>
    rcases ih with ih | ⟨d, r, h1, h2, h3⟩
    · have hn := ih (i + n) (Nat.le_add_right _ _) (Nat.le_refl _)
      have go : inCall g (ls.take (i + n + 1)) = some m → ∀ k, i ≤ k → k ≤ i + (n + 1) → inCall g (ls.take k) = some m := by
        intro h' k h1 h2
        rcases Nat.lt_or_eq_of_le h2 with e | rfl
        · exact ih k h1 (by omega)
        · exact h'
      cases hl : ls[i + n]? with
      | none => exact .inl (go (by rw [take_all hl]; exact hn))
      | some l =>
        by_cases hd : ∃ r, l = .done g r
        · obtain ⟨r, rfl⟩ := hd
          exact .inr ⟨i + n, r, Nat.le_add_right _ _, by omega, hl, ih⟩
        · refine .inl (go ?_)
          rw [take_snoc hl, inCall_snoc]
          cases l with
          | begin g' m' =>
            dsimp only
            split
            · rename_i e
              subst e
              rw [begin_idle h hl] at hn
              cases hn
            · exact hn
          | done g' r =>
            dsimp only
            split
            · rename_i e; subst e; exact absurd ⟨r, rfl⟩ hd
            · exact hn
          | _ => exact hn
    · exact .inr ⟨d, r, h1, by omega, h3⟩

/-- what the call changes is the same at all of its steps -/
theorem changes_const {ls : List (SLabel ω H)} {s : SSys ω H} (h : SRun user rootPath iounit host w0 ls s) {g : Nat} {m : TMsg} {i : Nat} (n : Nat)
    (hi : ∀ k, i ≤ k → k ≤ i + n → inCall g (ls.take k) = some m) :
    changes g m (ls.take (i + n)) (ls.drop (i + n)) = changes g m (ls.take i) (ls.drop i) := by
  induction n with
  | zero => rfl
  | succ n ih =>
    rw [← ih fun k h1 h2 => hi k h1 (by omega)]
    have hn := hi (i + n) (Nat.le_add_right _ _) (by omega)
    have hn' := hi (i + n + 1) (by omega) (by omega)
    cases hl : ls[i + n]? with
    | none =>
      have : ls.length ≤ i + n := List.getElem?_eq_none_iff.1 hl
      rw [show i + (n + 1) = i + n + 1 from rfl, take_all hl, List.drop_eq_nil_of_le this, List.drop_eq_nil_of_le (by omega)]
    | some l =>
      rw [show i + (n + 1) = i + n + 1 from rfl, take_snoc hl, drop_cons hl]
      refine changes_step ?_ ?_
      · rintro m' rfl
        rw [begin_idle h hl] at hn
        cases hn
      · rintro r rfl
        rw [take_snoc hl, inCall_snoc] at hn'
        simp at hn'

theorem changes_same {ls : List (SLabel ω H)} {s : SSys ω H} (h : SRun user rootPath iounit host w0 ls s) {g : Nat} {m : TMsg} {i j : Nat} (hij : i ≤ j)
    (hi : ∀ k, i ≤ k → k ≤ j → inCall g (ls.take k) = some m) : changes g m (ls.take j) (ls.drop j) = changes g m (ls.take i) (ls.drop i) := by
  obtain ⟨n, rfl⟩ := Nat.exists_eq_add_of_le hij
  exact changes_const h n hi

/-- the call that an access is made in -/
theorem access_call {ls : List (SLabel ω H)} {s : SSys ω H} (h : SRun user rootPath iounit host w0 ls s) {i g : Nat} {l : SLabel ω H} {x : Place} {b : Bool}
    (hi : ls[i]? = some l) (ha : l.access = some (g, x, b)) : ∃ m, current g (ls.take i) = some m ∧ inCall g (ls.take i) = some m ∧ l.who = some g ∧
      (x = .table → Spec.fids m ≠ []) ∧ (b = true → ∀ p y, x = .field p y → changes g m (ls.take i) (ls.drop i) = Spec.fids m) := by
  obtain ⟨t, t', c, ht, hst⟩ := upTo h hi
  have G := good_named h ht (List.take_prefix i ls)
  rcases step_cases hst with ⟨_, _, rfl, _, rfl⟩ | ⟨_, _, _, rfl, _, rfl⟩ | ⟨g', m, c, k, mem, a, rfl, h1, h2, rfl⟩ |
    ⟨_, _, _, _, rfl, _, rfl⟩ | ⟨_, rfl, rfl⟩
  · cases ha
  · cases ha
  · obtain ⟨y, hy1, _⟩ := G.busy g' m _ h1
    have hc := running ht h1
    have hin : inCall g' (ls.take i) = some m := by rw [inCall_run ht, h1]; rfl
    cases hy1 with
    | op hm _ =>
      cases c with
      | lookup fid => cases ha; exact ⟨m, hc, hin, rfl, fun _ => List.ne_nil_of_mem hm.1, by simp⟩
      | assign fid p => cases ha; exact ⟨m, hc, hin, rfl, fun _ => List.ne_nil_of_mem hm.1, by simp⟩
      | delete fid => cases ha; exact ⟨m, hc, hin, rfl, fun _ => List.ne_nil_of_mem hm.1, by simp⟩
      | store p f v =>
        cases ha
        refine ⟨m, hc, hin, rfl, by simp, fun _ p' y' _ => ?_⟩
        have hy := hm.2
        rw [drop_cons hi]
        cases m <;> first | rfl | (simp [changes, stores, MOp.isStore, Spec.fids]; done) | exact absurd hy (by simp [Changes])
      | lock => cases ha
      | unlock => cases ha
      | alloc f => cases ha
      | _ => cases ha; exact ⟨m, hc, hin, rfl, by simp, by simp⟩
  · cases ha
  · cases ha

/-! ### The theorem -/

/-- If calls that must not overlap do not, and the callers order them, then there are no data races. -/
theorem C126_race_free {ls : List (SLabel ω H)} {s : SSys ω H} (h : SRun user rootPath iounit host w0 ls s) (hsep : Separate ls) (hcl : NoClash ls)
    {i j g g' : Nat} {x : Place} {li lj : SLabel ω H} {b b' : Bool} (hij : i < j) (hg : g ≠ g') (hi : ls[i]? = some li) (hj : ls[j]? = some lj)
    (ai : li.access = some (g, x, b)) (aj : lj.access = some (g', x, b')) (hw : b = true ∨ b' = true) : Ordered ls i j := by
  apply Classical.byContradiction
  intro hno
  obtain ⟨m, m', hm, hm', hx⟩ := C122_races h (i := i) (j := j) (g := g) (g' := g') (x := x)
    ⟨hij, hg, ⟨li, lj, b, b', hi, hj, ai, aj, hw⟩, fun hb => hno (.go hb)⟩
  obtain ⟨m1, c1, n1, w1, t1, v1⟩ := access_call h hi ai
  obtain ⟨m2, c2, n2, w2, t2, v2⟩ := access_call h hj aj
  obtain rfl : m = m1 := Option.some.inj (hm.symm.trans c1)
  obtain rfl : m' = m2 := Option.some.inj (hm'.symm.trans c2)
  have con : Conflict ls i g m j g' m' := by
    cases x with
    | table =>
      rcases hx with hx | hx
      · exact .inl (.inl ⟨hx, t2 rfl⟩)
      · exact .inl (.inr (.inl ⟨hx, t1 rfl⟩))
    | root =>
      obtain ⟨hx, q, rfl⟩ := hx
      exact .inl (.inl ⟨hx, by simp [Spec.fids]⟩)
    | versioned => exact .inl (.inr (.inr hx))
    | field p y =>
      obtain ⟨⟨f, hf, hf'⟩, _⟩ := hx
      rcases hw with hw | hw
      · exact .inr (.inl ⟨f, by rw [v1 hw p y rfl]; exact hf, hf'⟩)
      · exact .inr (.inr ⟨f, by rw [v2 hw p y rfl]; exact hf', hf⟩)
  have notBegin : ∀ {k : Nat} {l : SLabel ω H} {g : Nat} {x : Place × Bool}, ls[k]? = some l → l.access = some (g, x) →
      ∀ g1 m1, ls[k]? ≠ some (.begin g1 m1) ∧ ∀ r, ls[k]? ≠ some (.done g1 r) := by
    intro k l g x hk ha g1 m1
    rw [hk]
    constructor
    · rintro ⟨⟩; cases ha
    · rintro r ⟨⟩; cases ha
  obtain ⟨b2, hb2, lb2, since2⟩ := inCall_since n2
  -- the call of `g'` begins while `g` is in its call
  have over : inCall g (ls.take b2) = some m → changes g m (ls.take b2) (ls.drop b2) = changes g m (ls.take i) (ls.drop i) → False := by
    intro hin hch
    have e : ls = ls.take b2 ++ .begin g' m' :: ls.drop (b2 + 1) := by rw [← drop_cons lb2, List.take_append_drop]
    obtain ⟨s1, s2⟩ := hsep _ _ g' m' e g m hin
    have k := hcl _ _ g' m' e g m hg hin
    rw [← drop_cons lb2, hch] at s1
    rw [← take_snoc lb2, ← changes_same h (i := b2 + 1) (j := j) hb2 fun k h1 h2 => since2 k h1 h2] at s2
    rcases con with c | ⟨f, hf, hf'⟩ | ⟨f, hf, hf'⟩
    · rcases c with c | c | c
      · exact k (.inr (.inl c))
      · exact k (.inl c)
      · exact k (.inr (.inr ⟨c.2, c.1⟩))
    · exact s1 f hf' hf
    · exact s2 f hf hf'
  rcases Nat.lt_trichotomy i b2 with hlt | heq | hgt
  · obtain ⟨n, hn⟩ := Nat.exists_eq_add_of_le (Nat.le_of_lt hlt)
    rcases inCall_until h n1 n with hu | ⟨d, r, hd1, hd2, hd3, hd4⟩
    · rw [← hn] at hu
      exact over (hu b2 (Nat.le_of_lt hlt) (Nat.le_refl _)) (changes_same h (Nat.le_of_lt hlt) hu)
    · have hd : i < d := Nat.lt_of_le_of_ne hd1 fun e => (notBegin hi ai g m).2 r (e ▸ hd3)
      refine hno (.trans (.go (.own hd hi hd3 w1 rfl)) (.trans (.callers (by omega) hd3 (hd4 d hd1 (Nat.le_refl _)) lb2 ?_)
        (.go (.own hb2 lb2 hj rfl w2))))
      unfold Conflict
      rw [changes_same h hd1 hd4, ← changes_same h (i := b2 + 1) (j := j) hb2 fun k h1 h2 => since2 k h1 h2]
      exact con
  · subst heq
    exact (notBegin hi ai g' m').1 lb2
  · obtain ⟨b1, hb1, lb1, since1⟩ := inCall_since n1
    rcases Nat.lt_trichotomy b1 b2 with hlt' | heq | hgt'
    · exact over (since1 b2 hlt' (Nat.le_of_lt hgt)) (changes_same h (Nat.le_of_lt hgt) fun k h1 h2 => since1 k (by omega) h2).symm
    · subst heq
      rw [lb1] at lb2
      cases lb2
      exact hg rfl
    · -- the call of `g` begins while `g'` is in its call
      have hin := since2 b1 hgt' (by omega)
      have e : ls = ls.take b1 ++ .begin g m :: ls.drop (b1 + 1) := by rw [← drop_cons lb1, List.take_append_drop]
      obtain ⟨s1, s2⟩ := hsep _ _ g m e g' m' hin
      have k := hcl _ _ g m e g' m' (Ne.symm hg) hin
      rw [← drop_cons lb1, ← changes_same h (i := b1) (j := j) (by omega) fun k h1 h2 => since2 k (by omega) h2] at s1
      rw [← take_snoc lb1, ← changes_same h (i := b1 + 1) (j := i) hb1 fun k h1 h2 => since1 k h1 h2] at s2
      rcases con with c | ⟨f, hf, hf'⟩ | ⟨f, hf, hf'⟩
      · exact k c
      · exact s2 f hf hf'
      · exact s1 f hf' hf

/-! ### Examples -/

theorem before_lt {ls : List (SLabel ω H)} {i j : Nat} (h : Before ls i j) : i < j := by
  induction h with
  | own h => exact h
  | mutex h => exact h
  | trans _ _ h1 h2 => exact Nat.lt_trans h1 h2

theorem ordered_lt {ls : List (SLabel ω H)} {i j : Nat} (h : Ordered ls i j) : i < j := by
  induction h with
  | go h => exact before_lt h
  | callers h => exact h
  | trans _ _ h1 h2 => exact Nat.lt_trans h1 h2

/-- no call ends at step `n` or later -/
def noneDone (n : Nat) (ls : List (SLabel ω H)) : Bool := (ls.drop n).all fun l => match l with | .done _ _ => false | _ => true

theorem ordered_before {ls : List (SLabel ω H)} {n i j : Nat} (hn : noneDone n ls = true) (h : Ordered ls i j) (hi : n ≤ i) : Before ls i j := by
  induction h with
  | go h => exact h
  | @callers i j g g' r m m' _ hd =>
    simp only [noneDone, List.all_eq_true] at hn
    have := hn (.done g r) (by
      rw [List.mem_iff_getElem?]
      exact ⟨i - n, by rw [List.getElem?_drop, Nat.add_sub_cancel' hi]; exact hd⟩)
    simp at this
  | trans h1 _ ih1 ih2 => exact .trans (ih1 hi) (ih2 (Nat.le_trans hi (Nat.le_of_lt (ordered_lt h1))))

/-- goroutine `g` does not release the mutex at steps `i` to `j - 1` -/
def keeps (ls : List (SLabel ω H)) (i j g : Nat) : Bool :=
  (List.range (j - i)).all fun n => match ls[i + n]? with | some (.op g1 .unlock) => g1 != g | _ => true

theorem keeps_not {ls : List (SLabel ω H)} {i j g : Nat} (h : keeps ls i j g = true) (n : Nat) (h1 : i ≤ n) (h2 : n < j) :
    ls[n]? ≠ some (.op g .unlock) := by
  intro he
  simp only [keeps, List.all_eq_true, List.mem_range] at h
  have := h (n - i) (by omega)
  rw [Nat.add_sub_cancel' h1, he] at this
  simp at this

/-- a check for races: goroutine `g` does not release the mutex between the two accesses -/
def racesFrom (ls : List (SLabel ω H)) (i j g g' : Nat) (x : Place) : Bool :=
  i < j && g != g' && (ls[i]?.bind SLabel.access == some (g, x, true)) && (ls[j]?.bind SLabel.access).any (fun y => y.1 == g' && y.2.1 == x) &&
    keeps ls i j g

theorem before_own {ls : List (SLabel ω H)} {i k : Nat} (h : Before ls i k) {j g : Nat} (hk : k ≤ j) (hi : (ls[i]?.bind SLabel.who) = some g)
    (hn : ∀ n, i ≤ n → n < j → ls[n]? ≠ some (.op g .unlock)) : (ls[k]?.bind SLabel.who) = some g := by
  induction h with
  | own _ h1 h2 h3 h4 =>
    rw [h1] at hi
    rw [h2]
    simp only [Option.bind_some] at hi ⊢
    rw [h4, ← h3, hi]
  | @mutex i k g1 g2 hlt h1 _ =>
    rw [h1] at hi
    cases hi
    exact absurd h1 (hn i (Nat.le_refl _) (Nat.lt_of_lt_of_le hlt hk))
  | @trans i m k h1 h2 ih1 ih2 =>
    have hm := before_lt h2
    exact ih2 hk (ih1 (by omega) hi hn) fun n hn1 hn2 => hn n (Nat.le_trans (Nat.le_of_lt (before_lt h1)) hn1) hn2

theorem racesFrom_race {ls : List (SLabel ω H)} {i j g g' : Nat} {x : Place} (h : racesFrom ls i j g g' x = true) : Race ls i j g g' x := by
  simp only [racesFrom, Bool.and_eq_true, decide_eq_true_eq, bne_iff_ne, beq_iff_eq] at h
  obtain ⟨⟨⟨⟨h1, h2⟩, h3⟩, h4⟩, h5⟩ := h
  cases e1 : ls[i]? with
  | none => rw [e1] at h3; cases h3
  | some li =>
    cases e2 : ls[j]? with
    | none => rw [e2] at h4; cases h4
    | some lj =>
      rw [e1] at h3
      rw [e2] at h4
      simp only [Option.bind_some] at h3 h4
      cases e3 : lj.access with
      | none => rw [e3] at h4; cases h4
      | some y =>
        obtain ⟨g1, x1, b'⟩ := y
        rw [e3] at h4
        simp only [Option.any_some, Bool.and_eq_true, beq_iff_eq] at h4
        obtain ⟨rfl, rfl⟩ := h4
        refine ⟨h1, h2, ⟨li, lj, true, b', e1, e2, h3, e3, .inl rfl⟩, fun hb => ?_⟩
        have := before_own hb (Nat.le_refl j) (g := g) (by rw [e1]; exact access_who h3) (keeps_not h5)
        rw [e2] at this
        have h6 := access_who e3
        simp only [Option.bind_some] at this
        rw [h6] at this
        exact h2 (Option.some.inj this).symm

instance (m m' : TMsg) : Decidable (Clash m m') :=
  decidable_of_iff (((match m with | .attach _ => true | _ => false) && (Spec.fids m' != [])) ||
      ((match m' with | .attach _ => true | _ => false) && (Spec.fids m != [])) ||
      ((match m with | .version _ => true | _ => false) && (match m' with | .version _ => true | _ => false)) = true) (by
    cases m <;> cases m' <;> simp [Clash])

/-- a check for `NoClash`, for goroutines below `n` -/
def noClashBy (n : Nat) (ls : List (SLabel ω H)) : Bool :=
  (ls.all fun l => match l with | .begin g _ => g < n | _ => true) &&
  (List.range ls.length).all fun i => match ls[i]? with
    | some (.begin g m) => (List.range n).all fun g' => g' == g || match inCall g' (ls.take i) with
      | some m' => !decide (Clash m m')
      | none => true
    | _ => true

theorem noClashBy_noClash {n : Nat} {ls : List (SLabel ω H)} (h : noClashBy n ls = true) : NoClash ls := by
  rintro ls1 ls2 g m rfl g' m' hne hin
  simp only [noClashBy, Bool.and_eq_true, List.all_eq_true, List.mem_range] at h
  have h1 := h.1 _ (List.mem_append_left _ (inCall_begun hin))
  have h2 := h.2 ls1.length (by simp)
  simp at h1 h2
  have h3 := h2 g' h1
  rw [hin] at h3
  simpa [hne] using h3

end

open Mem

/-- Goroutine 0 attaches, walks and opens; then goroutine 1 reads from the file. -/
def passOn : List (Choice World) :=
  whole 0 (attachTo 0) ++ whole 0 (.walk { SFID := 0, NewFID := 1, Paths := [[102]] }) ++ whole 0 (.open_ { OFID := 1 }) ++
  whole 1 (.read { OFID := 1, Len := 3 })

/-- the hypotheses of `C126_race_free`: goroutine 1 uses the file that goroutine 0 has opened -/
example : ∃ ls s, SRun [103] [47, 120] 8192 host world0 ls s ∧ Separate ls ∧ NoClash ls ∧ ∃ p : Ptr,
    (ls[25]?.bind SLabel.access) = some (0, .field p .file, true) ∧ (ls[32]?.bind SLabel.access) = some (1, .field p .file, false) :=
  ⟨_, _, shared_run passOn, separateBy_separate (n := 2) (by decide +kernel), noClashBy_noClash (n := 2) (by decide +kernel),
    (0, 1), by decide +kernel, by decide +kernel⟩

/-- … and these accesses are in order -/
example : Ordered (shared passOn).1 25 32 := by
  have h1 : ((shared passOn).1[25]?.bind SLabel.access) = some (0, .field (0, 1) .file, true) := by decide +kernel
  have h2 : ((shared passOn).1[32]?.bind SLabel.access) = some (1, .field (0, 1) .file, false) := by decide +kernel
  obtain ⟨l1, e1, a1⟩ := Option.bind_eq_some_iff.1 h1
  obtain ⟨l2, e2, a2⟩ := Option.bind_eq_some_iff.1 h2
  exact C126_race_free (shared_run passOn) (separateBy_separate (n := 2) (by decide +kernel)) (noClashBy_noClash (n := 2) (by decide +kernel))
    (by decide) (by decide) e1 e2 a1 a2 (.inl rfl)

/-- … also for calls that overlap -/
example : Separate (shared fork).1 ∧ NoClash (shared fork).1 ∧ Separate (shared twoWrites).1 ∧ NoClash (shared twoWrites).1 ∧
    Separate (shared twoReads).1 ∧ NoClash (shared twoReads).1 :=
  ⟨separateBy_separate (n := 2) (by decide +kernel), noClashBy_noClash (n := 2) (by decide +kernel),
    separateBy_separate (n := 2) (by decide +kernel), noClashBy_noClash (n := 2) (by decide +kernel),
    separateBy_separate (n := 2) (by decide +kernel), noClashBy_noClash (n := 2) (by decide +kernel)⟩

/-- from step `n` on no call ends before one begins that is in conflict with it -/
def noneAfter (n : Nat) (ls : List (SLabel ω H)) : Bool :=
  (List.range ls.length).all fun i => i < n || match ls[i]? with
    | some (.done g _) => match inCall g (ls.take i) with
      | some m => (List.range ls.length).all fun j => j ≤ i || match ls[j]? with
        | some (.begin g' m') => !(decide (Clash m m') || (changes g m (ls.take i) (ls.drop i)).any (fun f => (Spec.fids m').elem f) ||
            (changes g' m' (ls.take (j + 1)) (ls.drop (j + 1))).any fun f => (Spec.fids m).elem f)
        | _ => true
      | none => true
    | _ => true

theorem ordered_before_after {ls : List (SLabel ω H)} {n i j : Nat} (hn : noneAfter n ls = true) (h : Ordered ls i j) (hi : n ≤ i) : Before ls i j := by
  induction h with
  | go h => exact h
  | @callers i j g g' r m m' hlt hd hin hb hc =>
    simp only [noneAfter, List.all_eq_true, List.mem_range] at hn
    have h1 := hn i (List.getElem?_eq_some_iff.1 hd).1
    rw [hd] at h1
    simp only [hin, Bool.or_eq_true, decide_eq_true_eq, Nat.not_lt.2 hi, false_or, List.all_eq_true, List.mem_range] at h1
    have h2 := h1 j (List.getElem?_eq_some_iff.1 hb).1
    rw [hb] at h2
    simp only [Nat.not_le.2 hlt, false_or, Bool.not_eq_true', Bool.or_eq_false_iff, decide_eq_false_iff_not] at h2
    obtain ⟨⟨c1, c2⟩, c3⟩ := h2
    rcases hc with c | ⟨f, hf, hf'⟩ | ⟨f, hf, hf'⟩
    · exact absurd c c1
    · exact absurd (List.elem_iff.2 hf') (Bool.eq_false_iff.1 (List.any_eq_false.1 c2 f hf |> fun x => by simpa using x))
    · exact absurd (List.elem_iff.2 hf') (Bool.eq_false_iff.1 (List.any_eq_false.1 c3 f hf |> fun x => by simpa using x))
  | trans h1 _ ih1 ih2 => exact .trans (ih1 hi) (ih2 (Nat.le_trans hi (Nat.le_of_lt (ordered_lt h1))))

/-- Goroutine 0 attaches and looks at its fid; then goroutine 1 does. -/
def twoStats : List (Choice World) := whole 0 (attachTo 0) ++ whole 0 (.stat { OFID := 0 }) ++ whole 1 (.stat { OFID := 0 })

/-- Of calls that may overlap the callers order nothing: goroutine 0 and 1 load the name of the file, one after the other, and no order is
asked for. -/
example : ((shared twoStats).1[11]?.bind SLabel.access) = some (0, .field (0, 0) .name, false) ∧
    ((shared twoStats).1[18]?.bind SLabel.access) = some (1, .field (0, 0) .name, false) ∧ ¬ Ordered (shared twoStats).1 11 18 := by
  refine ⟨by decide +kernel, by decide +kernel, fun h => ?_⟩
  have := before_own (ordered_before_after (n := 9) (by decide +kernel) h (by decide)) (Nat.le_refl 18) (g := 0) (by decide +kernel) (keeps_not (by decide +kernel))
  exact absurd this (by decide +kernel)

/-- The callers have to order the calls: without that the read races with the open, though it begins when the open is done. -/
theorem C126_callers_counterexample : ∃ ls s i j p, SRun [103] [47, 120] 8192 host world0 ls s ∧ Separate ls ∧ NoClash ls ∧
    Race ls i j 0 1 (.field p .file) :=
  ⟨_, _, 25, 32, (0, 1), shared_run passOn, separateBy_separate (n := 2) (by decide +kernel), noClashBy_noClash (n := 2) (by decide +kernel),
    racesFrom_race (by decide +kernel)⟩

/-- `NoClash` is needed: two goroutines attach to different fids at the same time. -/
theorem C126_attach_counterexample : ∃ ls s i j, SRun [103] [47, 120] 8192 host world0 ls s ∧ Separate ls ∧
    Race ls i j 0 1 .table ∧ ¬ Ordered ls i j := by
  have hr : Race (shared twoAttach).1 6 7 0 1 .table := racesAt_race (by decide +kernel)
  exact ⟨_, _, 6, 7, shared_run twoAttach, separateBy_separate (n := 2) (by decide +kernel), hr,
    fun ho => hr.not (ordered_before (n := 6) (by decide +kernel) ho (by decide))⟩

/-- `Separate` is needed: two goroutines open the same fid at the same time. -/
theorem C126_open_counterexample : ∃ ls s i j p, SRun [103] [47, 120] 8192 host world0 ls s ∧ NoClash ls ∧
    Race ls i j 0 1 (.field p .file) ∧ ¬ Ordered ls i j := by
  have hr : Race (shared twoOpen).1 29 32 0 1 (.field (0, 1) .file) := racesAt_race (by decide +kernel)
  exact ⟨_, _, 29, 32, (0, 1), shared_run twoOpen, noClashBy_noClash (n := 2) (by decide +kernel), hr,
    fun ho => hr.not (ordered_before (n := 29) (by decide +kernel) ho (by decide))⟩

end Ninep.Ufs.Shared
