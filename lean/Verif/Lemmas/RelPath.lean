import Verif.Lemmas.Path

set_option linter.unusedSimpArgs false

/-
`path.Clean` on relative paths, and on paths in general; the fuel of the loop.
-/

namespace Ninep
open Spec

theorem slashed_append {es : List Bytes} (h : es ≠ []) (e : Bytes) : slashed (es ++ [e]) = slashed es ++ 47 :: e := by
  cases es with
  | nil => exact absurd rfl h
  | cons a es => simp [slashed]

theorem slashed_eq_nil {es : List Bytes} (hes : ∀ e ∈ es, Elem e) : slashed es = [] ↔ es = [] := by
  cases es with
  | nil => simp [slashed]
  | cons a es => simp [slashed, (hes a (by simp)).1]

theorem slashed_length_le (as bs : List Bytes) : (slashed as).length ≤ (slashed (as ++ bs)).length := by
  cases as with
  | nil => simp [slashed]
  | cons a as => simp [slashed]

theorem slashed_length_lt {as bs : List Bytes} (hb : ∀ e ∈ bs, Elem e) (h : bs ≠ []) :
    (slashed as).length < (slashed (as ++ bs)).length := by
  cases bs with
  | nil => exact absurd rfl h
  | cons b bs =>
    have : 0 < b.length := List.length_pos_iff.2 (hb b (by simp)).1
    cases as with
    | nil => simp [slashed]; omega
    | cons a as => simp [slashed]

theorem backtrack_from (dd : Nat) (pre e : Bytes) (he : 47 ∉ e) (k : Nat) (hk : k ≤ e.length) (hp : dd ≤ pre.length) :
    backtrack dd (pre ++ 47 :: e) (pre.length + 1 + k) = pre.length := by
  induction k with
  | zero =>
    show backtrack dd _ (pre.length + 1) = _
    rw [backtrack, if_neg]
    rintro ⟨-, h⟩
    exact h (by simp [slash])
  | succ k ih =>
    rw [← Nat.add_assoc, backtrack, if_pos]
    · exact ih (by omega)
    · refine ⟨by omega, ?_⟩
      have hlt : k < e.length := by omega
      have hi : (pre ++ 47 :: e).getD (pre.length + 1 + k) 0 = e[k] := by
        rw [List.getD_eq_getElem?_getD, List.getElem?_append_right (by omega)]
        have : pre.length + 1 + k - pre.length = k + 1 := by omega
        rw [this, List.getElem?_cons_succ]
        simp [hlt]
      rw [hi]
      intro h
      apply he
      have h : e[k] = 47 := h
      rw [← h]
      exact List.getElem_mem hlt

theorem backtrack_only (e : Bytes) (he : 47 ∉ e) (k : Nat) (hk : k ≤ e.length) : backtrack 0 e k = 0 := by
  induction k with
  | zero => rfl
  | succ k ih =>
    rw [backtrack]
    by_cases hk0 : k = 0
    · subst hk0; rw [if_neg (by omega)]
    · rw [if_pos]
      · exact ih (by omega)
      · refine ⟨by omega, ?_⟩
        have hlt : k < e.length := by omega
        have hi : e.getD k 0 = e[k] := by
          rw [List.getD_eq_getElem?_getD]
          simp [hlt]
        rw [hi]
        intro h
        apply he
        have h : e[k] = 47 := h
        rw [← h]
        exact List.getElem_mem hlt

/-- going back over the last name -/
theorem backtrack_slashed {ups es : List Bytes} (hu : ∀ e ∈ ups, Elem e) (hes : ∀ e ∈ es, Elem e) (hne : es ≠ []) :
    (slashed (ups ++ es)).take (backtrack (slashed ups).length (slashed (ups ++ es)) (slashed (ups ++ es)).length) =
      slashed (ups ++ es.dropLast) := by
  obtain ⟨es', e, rfl⟩ : ∃ es' e, es = es' ++ [e] := ⟨es.dropLast, es.getLast hne, (List.dropLast_concat_getLast hne).symm⟩
  have he : Elem e := hes e (by simp)
  rw [List.dropLast_concat, ← List.append_assoc]
  by_cases h : ups ++ es' = []
  · rw [h]
    have : ups = [] := (List.append_eq_nil_iff.1 h).1
    subst this
    simp only [List.nil_append, slashed, List.flatMap_nil, List.append_nil, List.length_nil]
    rw [backtrack_only e he.2 _ (Nat.le_refl _)]
    rfl
  · rw [slashed_append h]
    have e1 : (slashed (ups ++ es') ++ 47 :: e).length = (slashed (ups ++ es')).length + 1 + e.length := by simp; omega
    rw [e1, backtrack_from _ _ e he.2 _ (Nat.le_refl _) (slashed_length_le _ _), List.take_left]

theorem Spec.RelPlace.place_cons (p : RelPlace) (a : Bytes) (l : List Bytes) : p.place (a :: l) = (p.follow a).place l := rfl

theorem Spec.RelPlace.place_append (p : RelPlace) (a b : List Bytes) : p.place (a ++ b) = (p.place a).place b := by
  simp [RelPlace.place, List.foldl_append]

theorem Spec.RelPlace.follow_of_proper (p : RelPlace) {e : Bytes} (h : Proper e) : p.follow e = { p with names := p.names ++ [e] } := by
  unfold RelPlace.follow
  rw [if_neg h.2.2.1, if_neg h.2.2.2]

theorem Spec.RelPlace.place_of_proper (p : RelPlace) {l : List Bytes} (h : ∀ e ∈ l, Proper e) :
    p.place l = { p with names := p.names ++ l } := by
  induction l generalizing p with
  | nil => simp [RelPlace.place]
  | cons a l ih =>
    rw [RelPlace.place_cons, p.follow_of_proper (h a (by simp)), ih _ fun e he => h e (List.mem_cons_of_mem _ he)]
    simp

theorem Spec.RelPlace.follow_names (p : RelPlace) {e : Bytes} (he : Elem e) (hp : ∀ x ∈ p.names, Proper x) :
    ∀ x ∈ (p.follow e).names, Proper x := by
  unfold RelPlace.follow
  intro x hx
  split at hx
  · exact hp x hx
  · rename_i h1
    split at hx
    · split at hx
      · simp at hx
      · exact hp x (List.dropLast_subset _ hx)
    · rename_i h2
      rcases List.mem_append.1 hx with h | h
      · exact hp x h
      · rw [List.mem_singleton.1 h]; exact ⟨he.1, he.2, h1, h2⟩

theorem Spec.RelPlace.place_names (p : RelPlace) {l : List Bytes} (hl : ∀ e ∈ l, Elem e) (hp : ∀ x ∈ p.names, Proper x) :
    ∀ x ∈ (p.place l).names, Proper x := by
  induction l generalizing p with
  | nil => exact hp
  | cons a l ih => exact ih (p.follow a) (fun e he => hl e (List.mem_cons_of_mem _ he)) (p.follow_names (hl a (by simp)) hp)

theorem elem_dots {n : Nat} : ∀ e ∈ List.replicate n ([46, 46] : Bytes), Elem e := by
  intro e he
  rw [(List.mem_replicate.1 he).2]
  exact ⟨by simp, by decide⟩

theorem cleanLoop_rel (fuel : Nat) (rest : Bytes) (hf : rest.length ≤ fuel) (p : RelPlace) (hp : ∀ e ∈ p.names, Elem e) :
    cleanLoop false fuel rest (slashed p.elems) (slashed (List.replicate p.ups [46, 46])).length =
      slashed (p.place (elems rest)).elems := by
  induction fuel generalizing rest p with
  | zero =>
    have : rest = [] := by simpa using hf
    subst this
    simp [cleanLoop, elems_nil, RelPlace.place]
  | succ fuel ih =>
    cases rest with
    | nil => simp [cleanLoop, elems_nil, RelPlace.place]
    | cons x rest =>
      have hf' : rest.length ≤ fuel := by simpa using hf
      have hpe : ∀ e ∈ p.elems, Elem e := by
        intro e he
        rcases List.mem_append.1 he with h | h
        · exact elem_dots e h
        · exact hp e h
      unfold cleanLoop
      by_cases hx : x = slash
      · rw [if_pos hx, ih rest hf' p hp, hx]
        show _ = slashed (p.place (elems (47 :: rest))).elems
        rw [elems_slash]
      · have hx' : x ≠ 47 := hx
        rw [if_neg hx]
        by_cases h1 : x = dot ∧ (rest = [] ∨ rest.head? = some slash)
        · rw [if_pos h1, ih rest hf' p hp]
          obtain ⟨rfl, h1⟩ := h1
          have : elems (dot :: rest) = [46] :: elems rest := elems_elem_append (e := [46]) ⟨by simp, by decide⟩ rest h1
          rw [this, RelPlace.place_cons, show p.follow [46] = p from by unfold RelPlace.follow; rw [if_pos rfl]]
        · rw [if_neg h1]
          by_cases h2 : x = dot ∧ rest.head? = some dot ∧ (rest.tail = [] ∨ rest.tail.head? = some slash)
          · rw [if_pos h2]
            obtain ⟨rfl, h2, h3⟩ := h2
            match rest, h2 with
            | y :: rest, h2 =>
              simp only [List.head?_cons, Option.some.injEq] at h2
              subst h2
              simp only [List.tail_cons] at h3 ⊢
              have hf'' : rest.length ≤ fuel := by simp at hf'; omega
              have hel : elems (dot :: dot :: rest) = [46, 46] :: elems rest :=
                elems_elem_append (e := [46, 46]) ⟨by simp, by decide⟩ rest h3
              rw [hel, RelPlace.place_cons]
              by_cases hne : p.names = []
              · have hfo : p.follow [46, 46] = { ups := p.ups + 1 } := by
                  unfold RelPlace.follow
                  rw [if_neg (by decide), if_pos rfl, if_pos hne]
                rw [if_neg (by unfold RelPlace.elems; rw [hne]; simp), if_pos trivial, hfo]
                have hout : (if (slashed p.elems).length > 0 then slashed p.elems ++ [slash] else slashed p.elems) ++ [dot, dot] =
                    slashed (RelPlace.elems { ups := p.ups + 1 }) := by
                  have e1 : RelPlace.elems { ups := p.ups + 1 } = p.elems ++ [[46, 46]] := by
                    unfold RelPlace.elems
                    rw [hne]
                    simp [List.replicate_succ']
                  rw [e1]
                  by_cases h0 : p.elems = []
                  · rw [h0]; rfl
                  · rw [if_pos (List.length_pos_iff.2 (mt (slashed_eq_nil hpe).1 h0)), slashed_append h0]
                    simp [slash, dot]
                rw [hout]
                have := ih rest hf'' { ups := p.ups + 1 } (by simp)
                rw [← this]
                simp [RelPlace.elems]
              · have hfo : p.follow [46, 46] = { p with names := p.names.dropLast } := by
                  unfold RelPlace.follow
                  rw [if_neg (by decide), if_pos rfl, if_neg hne]
                have hlt : (slashed p.elems).length > (slashed (List.replicate p.ups [46, 46])).length := slashed_length_lt hp hne
                rw [if_pos hlt, hfo]
                show cleanLoop false fuel rest ((slashed (List.replicate p.ups [46, 46] ++ p.names)).take
                  (backtrack _ (slashed (List.replicate p.ups [46, 46] ++ p.names)) (slashed (List.replicate p.ups [46, 46] ++ p.names)).length)) _ = _
                rw [backtrack_slashed elem_dots hp hne]
                exact ih rest hf'' { p with names := p.names.dropLast } fun e he => hp e (List.dropLast_subset _ he)
          · rw [if_neg h2]
            dsimp only
            have hname : (x :: rest).takeWhile (fun x => decide (x ≠ slash)) = x :: rest.takeWhile (fun x => decide (x ≠ 47)) := by
              rw [List.takeWhile_cons, if_pos (by simpa using hx)]; rfl
            have hdrop : (x :: rest).dropWhile (fun x => decide (x ≠ slash)) = rest.dropWhile (fun x => decide (x ≠ 47)) := by
              rw [List.dropWhile_cons, if_pos (by simpa using hx)]; rfl
            rw [hname, hdrop, elems_cons hx']
            have hel : Elem (x :: rest.takeWhile (fun x => decide (x ≠ 47))) :=
              elems_elem (x :: rest) _ (by rw [elems_cons hx']; simp)
            have hfo : p.follow (x :: rest.takeWhile (fun x => decide (x ≠ 47))) =
                { p with names := p.names ++ [x :: rest.takeWhile (fun x => decide (x ≠ 47))] } := by
              refine p.follow_of_proper ⟨hel.1, hel.2, ?_, ?_⟩
              · intro h
                simp only [List.cons.injEq] at h
                exact h1 ⟨h.1, takeWhile_nil_iff.1 h.2⟩
              · intro h
                simp only [List.cons.injEq] at h
                obtain ⟨hxx, h⟩ := h
                match rest, h with
                | y :: rest, h =>
                  by_cases hy : y = 47
                  · simp [List.takeWhile_cons, hy] at h
                  · simp only [List.takeWhile_cons, decide_eq_true_eq, hy, not_false_iff, if_true, decide_true, ne_eq, List.cons.injEq] at h
                    refine h2 ⟨hxx, by simp [h.1, dot], ?_⟩
                    exact takeWhile_nil_iff.1 h.2
            have hout : (if (false = true ∧ (slashed p.elems).length ≠ 1) ∨ (false = false ∧ (slashed p.elems).length ≠ 0) then slashed p.elems ++ [slash]
                else slashed p.elems) ++ x :: rest.takeWhile (fun x => decide (x ≠ 47)) =
                slashed (p.elems ++ [x :: rest.takeWhile (fun x => decide (x ≠ 47))]) := by
              by_cases h0 : p.elems = []
              · rw [h0]
                simp [slashed]
              · have := List.length_pos_iff.2 (mt (slashed_eq_nil hpe).1 h0)
                rw [if_pos (.inr ⟨rfl, by omega⟩), slashed_append h0]
                simp [slash]
            rw [hout, RelPlace.place_cons, hfo]
            have hlen := (List.dropWhile_suffix (l := rest) (fun x => decide (x ≠ 47))).length_le
            have := ih (rest.dropWhile fun x => decide (x ≠ 47)) (by omega)
              { p with names := p.names ++ [x :: rest.takeWhile (fun x => decide (x ≠ 47))] } (by
              intro e he
              rcases List.mem_append.1 he with h | h
              · exact hp e h
              · rw [List.mem_singleton.1 h]; exact hel)
            rw [← this]
            simp only [RelPlace.elems, List.append_assoc]

/-- `path.Clean` of a relative path: the place its elements lead to from the working directory. -/
theorem pathClean_rel {p : Bytes} (h : p.head? ≠ some 47) : pathClean p = (RelPlace.place {} (elems p)).path := by
  unfold pathClean
  by_cases h0 : p = []
  · subst h0
    rw [if_pos rfl, elems_nil]
    rfl
  · rw [if_neg h0]
    dsimp only
    have hh : p.head? ≠ some slash := h
    rw [if_neg hh]
    have := cleanLoop_rel p.length p (Nat.le_refl _) {} (by simp)
    have e1 : slashed (RelPlace.elems {}) = [] := rfl
    have e2 : slashed (List.replicate (RelPlace.ups {}) [46, 46]) = [] := rfl
    rw [e1, e2] at this
    simp only [List.length_nil] at this
    rw [this]
    unfold RelPlace.path
    have hel : ∀ e ∈ (RelPlace.place {} (elems p)).elems, Elem e := by
      intro e he
      rcases List.mem_append.1 he with h | h
      · exact elem_dots e h
      · exact Proper.elem (RelPlace.place_names {} (elems_elem p) (by simp) e h)
    by_cases h1 : (RelPlace.place {} (elems p)).elems = []
    · rw [if_pos h1, if_pos ((slashed_eq_nil hel).2 h1)]; rfl
    · rw [if_neg h1, if_neg (mt (slashed_eq_nil hel).1 h1)]

theorem elems_slashed {l : List Bytes} (hl : ∀ e ∈ l, Elem e) : elems (slashed l) = l := by
  cases l with
  | nil => exact elems_nil
  | cons a l =>
    unfold slashed
    rw [elems_elem_append (hl a (by simp)) _ (by cases l <;> simp)]
    have := elems_flatMap l (fun e he => hl e (List.mem_cons_of_mem _ he)) [] (.inl rfl)
    rw [List.append_nil, elems_nil, List.append_nil] at this
    rw [this]

theorem Spec.RelPlace.elems_elem (p : RelPlace) (hp : ∀ e ∈ p.names, Proper e) : ∀ e ∈ p.elems, Elem e := by
  intro e he
  rcases List.mem_append.1 he with h | h
  · exact elem_dots e h
  · exact Proper.elem (hp e h)

theorem place_dots (n k : Nat) : RelPlace.place { ups := k } (List.replicate n [46, 46]) = { ups := k + n } := by
  induction n generalizing k with
  | zero => rfl
  | succ n ih =>
    rw [List.replicate_succ, RelPlace.place_cons]
    have : RelPlace.follow { ups := k } [46, 46] = { ups := k + 1 } := rfl
    rw [this, ih]
    congr 1
    omega

/-- the elements of the path of a place lead to it -/
theorem Spec.RelPlace.place_path (p : RelPlace) (hp : ∀ e ∈ p.names, Proper e) : RelPlace.place {} (Spec.elems p.path) = p := by
  unfold RelPlace.path
  by_cases h : p.elems = []
  · rw [if_pos h]
    have h := List.append_eq_nil_iff.1 h
    have h1 : p.ups = 0 := by simpa using h.1
    have e1 : Spec.elems [46] = [[46]] := by rw [elems_cons (by decide)]; simp [elems_nil]
    rw [e1]
    obtain ⟨u, n⟩ := p
    cases h1
    cases h.2
    rfl
  · rw [if_neg h, elems_slashed (p.elems_elem hp)]
    unfold RelPlace.elems
    rw [RelPlace.place_append]
    have := place_dots p.ups 0
    rw [show ({ ups := 0 } : RelPlace) = {} from rfl] at this
    rw [this, RelPlace.place_of_proper _ hp]
    simp

theorem Spec.RelPlace.path_head (p : RelPlace) (hp : ∀ e ∈ p.names, Proper e) : p.path ≠ [] ∧ p.path.head? ≠ some 47 := by
  have h := p.elems_elem hp
  unfold RelPlace.path
  split
  · exact ⟨by simp, by decide⟩
  · rename_i hne
    cases hl : p.elems with
    | nil => exact absurd hl hne
    | cons a l =>
      rw [hl] at h
      have := h a (by simp)
      cases a with
      | nil => exact absurd rfl this.1
      | cons x a =>
        refine ⟨by simp [slashed], ?_⟩
        simp only [slashed, List.cons_append, List.head?_cons, ne_eq, Option.some.injEq]
        rintro rfl
        exact this.2 (by simp)

/-- `path.Join` onto a relative path -/
theorem pathJoin_rel {a : Bytes} (h0 : a ≠ []) (h : a.head? ≠ some 47) (b : Bytes) :
    pathJoin a b = ((RelPlace.place {} (elems a)).place (elems b)).path := by
  unfold pathJoin
  rw [if_pos h0, pathClean_rel]
  · show (RelPlace.place {} (elems (a ++ 47 :: b))).path = _
    rw [elems_join, RelPlace.place_append]
  · cases a with
    | nil => exact absurd rfl h0
    | cons x a => simpa using h

theorem pathJoin_relPlace {p : RelPlace} (hp : ∀ e ∈ p.names, Proper e) (b : Bytes) : pathJoin p.path b = (p.place (elems b)).path := by
  have h := p.path_head hp
  rw [pathJoin_rel h.1 h.2, p.place_path hp]

theorem pathDir_relPlace {p : RelPlace} (hp : ∀ e ∈ p.names, Proper e) (hne : p.names ≠ []) :
    pathDir p.path = { p with names := p.names.dropLast : RelPlace }.path := by
  obtain ⟨u, names⟩ := p
  obtain ⟨ns, e, rfl⟩ : ∃ es' e, names = es' ++ [e] := ⟨names.dropLast, names.getLast hne, (List.dropLast_concat_getLast hne).symm⟩
  have he : Proper e := hp e (by simp)
  have hns : ∀ x ∈ ns, Proper x := fun x hx => hp x (by simp [hx])
  show pathDir (RelPlace.path ⟨u, ns ++ [e]⟩) = RelPlace.path ⟨u, (ns ++ [e]).dropLast⟩
  rw [List.dropLast_concat]
  have e1 : RelPlace.elems ⟨u, ns ++ [e]⟩ = RelPlace.elems ⟨u, ns⟩ ++ [e] := by simp [RelPlace.elems]
  have hpath : RelPlace.path ⟨u, ns ++ [e]⟩ = slashed (RelPlace.elems ⟨u, ns⟩ ++ [e]) := by
    unfold RelPlace.path
    rw [e1, if_neg (by simp)]
  rw [hpath]
  unfold pathDir
  have hel := RelPlace.elems_elem ⟨u, ns⟩ hns
  have hplace := RelPlace.place_path ⟨u, ns⟩ hns
  by_cases h0 : RelPlace.elems ⟨u, ns⟩ = []
  · rw [h0]
    have hs : slashed ([] ++ [e]) = e := by simp [slashed]
    have hd : pathSplitDir e = [] := by
      unfold pathSplitDir
      have : e.reverse.dropWhile (fun x => decide (x ≠ slash)) = [] := by
        rw [← List.append_nil e.reverse, List.dropWhile_append_of_pos]
        · rfl
        intro x hx
        have : x ≠ 47 := by rintro rfl; exact he.2.1 (by simpa using hx)
        exact decide_eq_true this
      rw [this]; rfl
    rw [hs, hd]
    unfold RelPlace.path
    rw [if_pos h0]
    rfl
  · rw [slashed_append h0]
    have hd : pathSplitDir (slashed (RelPlace.elems ⟨u, ns⟩) ++ 47 :: e) = slashed (RelPlace.elems ⟨u, ns⟩) ++ [47] := by
      unfold pathSplitDir
      rw [List.reverse_append, List.reverse_cons]
      have : e.reverse ++ [47] ++ (slashed (RelPlace.elems ⟨u, ns⟩)).reverse = e.reverse ++ 47 :: (slashed (RelPlace.elems ⟨u, ns⟩)).reverse := by simp
      rw [this, dropWhile_elem (by simpa using he.2.1)]
      simp
    have hpn : RelPlace.path ⟨u, ns⟩ = slashed (RelPlace.elems ⟨u, ns⟩) := by
      unfold RelPlace.path; rw [if_neg h0]
    have hh := RelPlace.path_head ⟨u, ns⟩ hns
    rw [hd, ← hpn, pathClean_rel]
    · rw [elems_join, elems_nil, List.append_nil, hplace]
    · cases hq : RelPlace.path ⟨u, ns⟩ with
      | nil => exact absurd hq hh.1
      | cons x q => rw [hq] at hh; simpa using hh.2

/-! ### roots -/

theorem noRoot_proper (p : Bytes) : ∀ e ∈ place [] (elems p), Proper e :=
  place_proper (by simp) (elems_elem p)

theorem place_noUp {es l : List Bytes} (hl : ∀ e ∈ l, Elem e) (hu : [46, 46] ∉ l) :
    ∃ names, (∀ n ∈ names, Proper n) ∧ place es l = es ++ names := by
  induction l generalizing es with
  | nil => exact ⟨[], by simp, by simp [place]⟩
  | cons e l ih =>
    rw [place_cons]
    obtain ⟨names, hn, he⟩ := ih (es := follow es e) (fun x hx => hl x (List.mem_cons_of_mem _ hx))
      (fun h => hu (List.mem_cons_of_mem _ h))
    rw [he]
    unfold follow
    by_cases h1 : e = [46]
    · rw [if_pos h1]; exact ⟨names, hn, rfl⟩
    · have h2 : e ≠ [46, 46] := by rintro rfl; exact hu (by simp)
      rw [if_neg h1, if_neg h2]
      refine ⟨e :: names, ?_, by simp⟩
      intro n hn'
      rcases List.mem_cons.1 hn' with rfl | h
      · exact ⟨(hl _ (by simp)).1, (hl _ (by simp)).2, h1, h2⟩
      · exact hn n h

theorem rel_noUp (p : RelPlace) {l : List Bytes} (hu : [46, 46] ∉ l) : p.place l = { p with names := place p.names l } := by
  induction l generalizing p with
  | nil => rfl
  | cons e l ih =>
    have h2 : e ≠ [46, 46] := by rintro rfl; exact hu (by simp)
    rw [RelPlace.place_cons, ih _ fun h => hu (List.mem_cons_of_mem _ h), place_cons]
    unfold RelPlace.follow follow
    by_cases h1 : e = [46]
    · rw [if_pos h1, if_pos h1]
    · rw [if_neg h1, if_neg h1, if_neg h2, if_neg h2]

/-- a root without dots in it -/
def Spec.Root.Proper : Root → Prop
  | .abs es => ∀ e ∈ es, Spec.Proper e
  | .rel p => ∀ e ∈ p.names, Spec.Proper e

theorem rootOf_proper (root : Bytes) : (rootOf root).Proper := by
  unfold rootOf
  split
  · exact noRoot_proper root
  · exact RelPlace.place_names {} (elems_elem root) (by simp)

theorem below_proper {root names : List Bytes} (hr : ∀ e ∈ root, Proper e) (hn : ∀ n ∈ names, Proper n) :
    ∀ e ∈ root ++ names, Proper e := by
  intro e he
  rcases List.mem_append.1 he with h | h
  · exact hr e h
  · exact hn e h

/-- joining a name that does not lead up -/
theorem under_join {root : Root} (hr : root.Proper) {names : List Bytes} (hn : ∀ n ∈ names, Proper n) {n : Bytes}
    (h : [46, 46] ∉ elems n) : ∃ more, (∀ n ∈ more, Proper n) ∧ pathJoin (root.under names) n = root.under (names ++ more) := by
  cases root with
  | abs es =>
    obtain ⟨more, hm, he⟩ := place_noUp (es := es ++ names) (elems_elem n) h
    refine ⟨more, hm, ?_⟩
    show pathJoin (absPath (es ++ names)) n = absPath (es ++ (names ++ more))
    rw [pathJoin_place (below_proper hr hn), he, List.append_assoc]
  | rel p =>
    obtain ⟨more, hm, he⟩ := place_noUp (es := p.names ++ names) (elems_elem n) h
    refine ⟨more, hm, ?_⟩
    show pathJoin (RelPlace.path ⟨p.ups, p.names ++ names⟩) n = RelPlace.path ⟨p.ups, p.names ++ (names ++ more)⟩
    rw [pathJoin_relPlace (below_proper hr hn), rel_noUp _ h]
    show RelPlace.path ⟨p.ups, place (p.names ++ names) (elems n)⟩ = _
    rw [he, List.append_assoc]

/-- joining an absolute name that has been cleaned -/
theorem under_join_abs {root : Root} (hr : root.Proper) {names : List Bytes} (hn : ∀ n ∈ names, Proper n) {ns : List Bytes}
    (hs : ∀ n ∈ ns, Proper n) : pathJoin (root.under names) (absPath ns) = root.under (names ++ ns) := by
  have he := elems_absPath' fun e h => Proper.elem (hs e h)
  cases root with
  | abs es =>
    show pathJoin (absPath (es ++ names)) (absPath ns) = absPath (es ++ (names ++ ns))
    rw [pathJoin_place (below_proper hr hn), he, place_of_proper hs, List.append_assoc]
  | rel p =>
    show pathJoin (RelPlace.path ⟨p.ups, p.names ++ names⟩) (absPath ns) = RelPlace.path ⟨p.ups, p.names ++ (names ++ ns)⟩
    rw [pathJoin_relPlace (below_proper hr hn), he, RelPlace.place_of_proper _ hs, List.append_assoc]

/-- the directory of a place strictly below the root -/
theorem under_dir {root : Root} (hr : root.Proper) {names : List Bytes} (hn : ∀ n ∈ names, Proper n) (hne : names ≠ []) :
    pathDir (root.under names) = root.under names.dropLast := by
  cases root with
  | abs es =>
    show pathDir (absPath (es ++ names)) = absPath (es ++ names.dropLast)
    rw [pathDir_place (below_proper hr hn), List.dropLast_append_of_ne_nil hne]
  | rel p =>
    show pathDir (RelPlace.path ⟨p.ups, p.names ++ names⟩) = RelPlace.path ⟨p.ups, p.names ++ names.dropLast⟩
    rw [pathDir_relPlace (below_proper hr hn) (by simp [hne])]
    show RelPlace.path ⟨p.ups, (p.names ++ names).dropLast⟩ = _
    rw [List.dropLast_append_of_ne_nil hne]

/-- joining an absolute name to a root -/
theorem pathJoin_rootOf (root : Bytes) {b : Bytes} (hb : b.head? = some 47) :
    pathJoin root b = match rootOf root with
      | .abs es => absPath (place es (elems b))
      | .rel p => (p.place (elems b)).path := by
  unfold rootOf
  by_cases h0 : root = []
  · subst h0
    rw [if_pos (.inl rfl)]
    have : b ≠ [] := by rintro rfl; cases hb
    unfold pathJoin
    rw [if_neg (by simp), if_pos this, pathClean_abs hb, elems_nil]
    rfl
  · by_cases h1 : root.head? = some 47
    · rw [if_pos (.inr h1)]
      exact pathJoin_root h1 b
    · rw [if_neg (by rintro (h | h) <;> contradiction)]
      exact pathJoin_rel h0 h1 b

theorem rootOf_join_abs (root : Bytes) {ns : List Bytes} (hs : ∀ n ∈ ns, Proper n) :
    pathJoin root (absPath ns) = (rootOf root).under ns := by
  rw [pathJoin_rootOf root (absPath_head ns), elems_absPath' fun e h => Proper.elem (hs e h)]
  cases rootOf root with
  | abs es => exact congrArg absPath (place_of_proper hs)
  | rel p => exact congrArg RelPlace.path (RelPlace.place_of_proper p hs)

theorem rootOf_join (root : Bytes) {b : Bytes} (hb : b.head? = some 47) (h : [46, 46] ∉ elems b) :
    ∃ more, (∀ n ∈ more, Proper n) ∧ pathJoin root b = (rootOf root).under more := by
  rw [pathJoin_rootOf root hb]
  cases rootOf root with
  | abs es =>
    obtain ⟨more, hm, he⟩ := place_noUp (es := es) (elems_elem b) h
    exact ⟨more, hm, congrArg absPath he⟩
  | rel p =>
    obtain ⟨more, hm, he⟩ := place_noUp (es := p.names) (elems_elem b) h
    refine ⟨more, hm, ?_⟩
    dsimp only
    rw [rel_noUp p h, he]
    rfl

theorem pathJoin_slash (n : Bytes) : pathJoin [slash] n = absPath (place [] (elems n)) := by
  have := pathJoin_place (es := []) (by simp) n
  simpa [absPath, slash] using this

/-! ### fuel -/

/-- any larger bound on the number of turns of the loop of `path.Clean` gives the same result -/
theorem cleanLoop_fuel (rooted : Bool) (n k : Nat) (rest : Bytes) (h : rest.length ≤ n) (out : Bytes) (dd : Nat) :
    cleanLoop rooted (n + k) rest out dd = cleanLoop rooted n rest out dd := by
  induction n generalizing rest out dd with
  | zero =>
    have : rest = [] := by simpa using h
    subst this
    cases k with
    | zero => rfl
    | succ k => rw [Nat.zero_add, cleanLoop, cleanLoop]
  | succ n ih =>
    cases rest with
    | nil => rw [show n + 1 + k = n + k + 1 by omega, cleanLoop, cleanLoop]
    | cons x rest =>
      have h : rest.length ≤ n := by simpa using h
      have ht : rest.tail.length ≤ n := by simp; omega
      rw [show n + 1 + k = n + k + 1 by omega]
      unfold cleanLoop
      rw [ih rest h]
      simp only [ih rest h, ih rest.tail ht]
      by_cases hx : x = slash
      · rw [if_pos hx, if_pos hx]
      · rw [if_neg hx, if_neg hx]
        have hd : ((x :: rest).dropWhile fun x => decide (x ≠ slash)).length ≤ n := by
          rw [List.dropWhile_cons, if_pos (by simpa using hx)]
          exact Nat.le_trans (List.dropWhile_suffix _).length_le h
        rw [ih _ hd]

end Ninep
