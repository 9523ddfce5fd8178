import Verif.Go.Path
import Verif.Spec.Path

set_option linter.unusedSimpArgs false
set_option linter.unusedVariables false

/-
`path.Clean` on absolute paths computes the place its elements lead to.
-/

namespace Ninep
open Spec

theorem elems_nil : elems [] = [] := by rw [elems]

theorem elems_slash (p : Bytes) : elems (47 :: p) = elems p := by rw [elems]; simp

theorem elems_cons {x : Byte} (h : x ≠ 47) (p : Bytes) :
    elems (x :: p) = (x :: p.takeWhile (· ≠ 47)) :: elems (p.dropWhile (· ≠ 47)) := by
  rw [elems]; rw [if_neg h]

/-- what every element of a path is like -/
def Elem (e : Bytes) : Prop := e ≠ [] ∧ 47 ∉ e

theorem elems_elem (p : Bytes) : ∀ e ∈ elems p, Elem e := by
  induction hn : p.length using Nat.strongRecOn generalizing p with
  | ind n ih =>
    cases p with
    | nil => simp [elems_nil]
    | cons x p =>
      by_cases hx : x = 47
      · subst hx
        rw [elems_slash]
        exact ih p.length (by rw [← hn]; simp) p rfl
      · rw [elems_cons hx]
        intro e he
        rcases List.mem_cons.1 he with rfl | he
        · refine ⟨by simp, ?_⟩
          intro hm
          rcases List.mem_cons.1 hm with h | h
          · exact hx h.symm
          · have := List.all_takeWhile (l := p) (p := (· ≠ 47))
            rw [List.all_eq_true] at this
            simpa using this _ h
        · have hs := (List.dropWhile_suffix (l := p) (fun x => decide (x ≠ 47))).length_le
          exact ih _ (by rw [← hn]; simp only [List.length_cons]; omega) _ rfl e he

theorem follow_elem {es : List Bytes} (hes : ∀ e ∈ es, Elem e) {e : Bytes} (he : Elem e) :
    ∀ x ∈ follow es e, Elem x := by
  unfold follow
  intro x hx
  split at hx
  · exact hes x hx
  · split at hx
    · exact hes x (List.dropLast_subset _ hx)
    · rcases List.mem_append.1 hx with h | h
      · exact hes x h
      · rw [List.mem_singleton.1 h]; exact he

/-- the elements of a place have no dots either -/
theorem follow_proper {es : List Bytes} (hes : ∀ e ∈ es, Proper e) {e : Bytes} (he : Elem e) :
    ∀ x ∈ follow es e, Proper x := by
  unfold follow
  intro x hx
  split at hx
  · exact hes x hx
  · rename_i h1
    split at hx
    · exact hes x (List.dropLast_subset _ hx)
    · rename_i h2
      rcases List.mem_append.1 hx with h | h
      · exact hes x h
      · rw [List.mem_singleton.1 h]; exact ⟨he.1, he.2, h1, h2⟩

theorem place_proper {es l : List Bytes} (hes : ∀ e ∈ es, Proper e) (hl : ∀ e ∈ l, Elem e) :
    ∀ x ∈ place es l, Proper x := by
  induction l generalizing es with
  | nil => exact hes
  | cons a l ih =>
    exact ih (follow_proper hes (hl a (by simp))) fun e he => hl e (List.mem_cons_of_mem _ he)

theorem Proper.elem {e : Bytes} (h : Proper e) : Elem e := ⟨h.1, h.2.1⟩

theorem follow_of_proper {es : List Bytes} {e : Bytes} (h : Proper e) : follow es e = es ++ [e] := by
  unfold follow
  rw [if_neg h.2.2.1, if_neg h.2.2.2]

theorem place_cons (es l : List Bytes) (a : Bytes) : place es (a :: l) = place (follow es a) l := rfl

theorem follow_dot (es : List Bytes) : follow es [46] = es := by unfold follow; rw [if_pos rfl]

theorem follow_dotdot (es : List Bytes) : follow es [46, 46] = es.dropLast := by
  unfold follow; rw [if_neg (by decide), if_pos rfl]

theorem place_of_proper {es l : List Bytes} (h : ∀ e ∈ l, Proper e) : place es l = es ++ l := by
  induction l generalizing es with
  | nil => simp [place]
  | cons a l ih =>
    show place (follow es a) l = _
    rw [follow_of_proper (h a (by simp)), ih fun e he => h e (List.mem_cons_of_mem _ he)]
    simp

theorem place_append (es a b : List Bytes) : place es (a ++ b) = place (place es a) b := by
  simp [place, List.foldl_append]

/-! ### rendering -/

theorem absPath_append (es : List Bytes) (h : es ≠ []) (e : Bytes) :
    absPath (es ++ [e]) = absPath es ++ 47 :: e := by
  cases es with
  | nil => exact absurd rfl h
  | cons a es => simp [absPath]

theorem absPath_ne (es : List Bytes) (h : es ≠ []) : absPath es = es.flatMap (47 :: ·) := by
  cases es with
  | nil => exact absurd rfl h
  | cons a es => rfl

theorem absPath_length {es : List Bytes} (hes : ∀ e ∈ es, Elem e) :
    1 ≤ (absPath es).length ∧ (es ≠ [] → 2 ≤ (absPath es).length) := by
  cases es with
  | nil => simp [absPath]
  | cons a es =>
    have := (hes a (by simp)).1
    have : a.length ≠ 0 := by simpa using this
    simp [absPath]
    omega

theorem absPath_head (es : List Bytes) : (absPath es).head? = some 47 := by
  cases es <;> simp [absPath]

theorem elems_elem_append {e : Bytes} (he : Elem e) (q : Bytes) (hq : q = [] ∨ q.head? = some 47) :
    elems (e ++ q) = e :: elems q := by
  match e, he with
  | x :: r, he =>
    have hx : x ≠ 47 := by intro h; exact he.2 (by simp [h])
    have hr : ∀ y ∈ r, y ≠ 47 := by intro y hy h; exact he.2 (by simp [← h, hy])
    have h1 : (r ++ q).takeWhile (fun x => decide (x ≠ 47)) = r := by
      rw [List.takeWhile_append_of_pos (by intro y hy; simpa using hr y hy)]
      rcases hq with rfl | hq
      · simp
      · match q, hq with
        | y :: q, hq =>
          simp only [List.head?_cons, Option.some.injEq] at hq
          simp [hq]
    have h2 : (r ++ q).dropWhile (fun x => decide (x ≠ 47)) = q := by
      rw [List.dropWhile_append_of_pos (by intro y hy; simpa using hr y hy)]
      rcases hq with rfl | hq
      · simp
      · match q, hq with
        | y :: q, hq =>
          simp only [List.head?_cons, Option.some.injEq] at hq
          simp [hq]
    rw [List.cons_append, elems_cons hx, h1, h2]

theorem elems_flatMap (es : List Bytes) (hes : ∀ e ∈ es, Elem e) (q : Bytes) (hq : q = [] ∨ q.head? = some 47) :
    elems (es.flatMap (47 :: ·) ++ q) = es ++ elems q := by
  induction es with
  | nil => simp
  | cons a es ih =>
    have ih := ih fun e he => hes e (List.mem_cons_of_mem _ he)
    simp only [List.flatMap_cons, List.cons_append, List.append_assoc]
    rw [elems_slash, elems_elem_append (hes a (by simp))]
    · rw [ih]
    · cases es with
      | nil => simpa using hq
      | cons b es => right; simp

/-- the elements of a rendered place followed by something absolute -/
theorem elems_absPath (es : List Bytes) (hes : ∀ e ∈ es, Elem e) (q : Bytes) (hq : q = [] ∨ q.head? = some 47) :
    elems (absPath es ++ q) = es ++ elems q := by
  cases es with
  | nil => simp [absPath, elems_slash]
  | cons a es => exact elems_flatMap (a :: es) hes q hq

/-! ### `path.Clean` -/

/-- going back over the last element -/
theorem backtrack_elem (pre e : Bytes) (he : 47 ∉ e) (k : Nat) (hk : k ≤ e.length) (post : Bytes) (hp : 1 ≤ pre.length) :
    backtrack 1 (pre ++ 47 :: (e ++ post)) (pre.length + 1 + k) = max 1 pre.length := by
  induction k with
  | zero =>
    show backtrack 1 _ (pre.length + 1) = _
    rw [backtrack, if_neg]
    · omega
    · rintro ⟨-, h⟩
      exact h (by simp [slash])
  | succ k ih =>
    rw [← Nat.add_assoc, backtrack, if_pos]
    · exact ih (by omega)
    · refine ⟨by omega, ?_⟩
      have hlt : k < e.length := by omega
      have hi : (pre ++ 47 :: (e ++ post)).getD (pre.length + 1 + k) 0 = e[k] := by
        rw [List.getD_eq_getElem?_getD, List.getElem?_append_right (by omega)]
        have : pre.length + 1 + k - pre.length = k + 1 := by omega
        rw [this, List.getElem?_cons_succ, List.getElem?_append_left hlt]
        simp [hlt]
      rw [hi]
      intro h
      apply he
      have h : e[k] = 47 := h
      rw [← h]
      exact List.getElem_mem hlt

theorem backtrack_first (e : Bytes) (he : 47 ∉ e) (k : Nat) (hk : k ≤ e.length) (h0 : 1 ≤ k) :
    backtrack 1 (47 :: e) (1 + k) = 1 := by
  induction k with
  | zero => omega
  | succ k ih =>
    rw [← Nat.add_assoc, backtrack]
    by_cases hk0 : k = 0
    · subst hk0; rw [if_neg (by omega)]
    · rw [if_pos]
      · exact ih (by omega) (by omega)
      · refine ⟨by omega, ?_⟩
        have hlt : k < e.length := by omega
        have hi : ((47 : Byte) :: e).getD (1 + k) 0 = e[k] := by
          rw [List.getD_eq_getElem?_getD, Nat.add_comm, List.getElem?_cons_succ]
          simp [hlt]
        rw [hi]
        intro h
        apply he
        have h : e[k] = 47 := h
        rw [← h]
        exact List.getElem_mem hlt

theorem backtrack_absPath {es : List Bytes} (hes : ∀ e ∈ es, Elem e) (hne : es ≠ []) :
    (absPath es).take (backtrack 1 (absPath es) (absPath es).length) = absPath es.dropLast := by
  obtain ⟨es', e, rfl⟩ : ∃ es' e, es = es' ++ [e] := ⟨es.dropLast, es.getLast hne, (List.dropLast_concat_getLast hne).symm⟩
  have he : Elem e := hes e (by simp)
  rw [List.dropLast_concat]
  by_cases h : es' = []
  · subst h
    have hlen : 1 ≤ e.length := by have : e.length ≠ 0 := by simpa using he.1
                                   omega
    have e1 : absPath ([] ++ [e]) = 47 :: e := by simp [absPath]
    rw [e1]
    have : (47 :: e).length = 1 + e.length := by simp; omega
    rw [this, backtrack_first e he.2 e.length (Nat.le_refl _) hlen]
    simp [absPath]
  · rw [absPath_append es' h]
    have hl := (absPath_length (es := es') fun x hx => hes x (by simp [hx])).2 h
    have := backtrack_elem (absPath es') e he.2 e.length (Nat.le_refl _) [] (by omega)
    simp only [List.append_nil] at this
    have e1 : (absPath es' ++ 47 :: e).length = (absPath es').length + 1 + e.length := by simp; omega
    rw [e1, this, show max 1 (absPath es').length = (absPath es').length by omega, List.take_left]

theorem takeWhile_nil_iff {r : Bytes} : r.takeWhile (fun x => decide (x ≠ 47)) = [] ↔ r = [] ∨ r.head? = some 47 := by
  cases r with
  | nil => simp
  | cons y r =>
    by_cases h : y = 47 <;> simp [List.takeWhile_cons, h]

theorem cleanLoop_rooted (fuel : Nat) (rest : Bytes) (hf : rest.length ≤ fuel) (es : List Bytes) (hes : ∀ e ∈ es, Elem e) :
    cleanLoop true fuel rest (absPath es) 1 = absPath (place es (elems rest)) := by
  induction fuel generalizing rest es with
  | zero =>
    have : rest = [] := by simpa using hf
    subst this
    simp [cleanLoop, elems_nil, place]
  | succ fuel ih =>
    cases rest with
    | nil => simp [cleanLoop, elems_nil, place]
    | cons x rest =>
      have hf' : rest.length ≤ fuel := by simpa using hf
      unfold cleanLoop
      by_cases hx : x = slash
      · rw [if_pos hx, ih rest hf' es hes, hx]
        show _ = absPath (place es (elems (47 :: rest)))
        rw [elems_slash]
      · have hx' : x ≠ 47 := hx
        rw [if_neg hx]
        by_cases h1 : x = dot ∧ (rest = [] ∨ rest.head? = some slash)
        · rw [if_pos h1, ih rest hf' es hes]
          obtain ⟨rfl, h1⟩ := h1
          have : elems (dot :: rest) = [46] :: elems rest := elems_elem_append (e := [46]) ⟨by simp, by decide⟩ rest h1
          rw [this]
          have hfo : place es ([46] :: elems rest) = place es (elems rest) := by
            rw [place_cons, follow_dot]
          rw [hfo]
        · rw [if_neg h1]
          by_cases h2 : x = dot ∧ rest.head? = some dot ∧ (rest.tail = [] ∨ rest.tail.head? = some slash)
          · rw [if_pos h2]
            obtain ⟨rfl, h2, h3⟩ := h2
            match rest, h2 with
            | y :: rest, h2 =>
              simp only [List.head?_cons, Option.some.injEq] at h2
              subst h2
              simp only [List.tail_cons] at h3 ⊢
              have hf'' : rest.length ≤ fuel := by simp at hf'; omega
              have hel : elems (dot :: dot :: rest) = [46, 46] :: elems rest :=
                elems_elem_append (e := [46, 46]) ⟨by simp, by decide⟩ rest h3
              have hfo : place es (elems (dot :: dot :: rest)) = place es.dropLast (elems rest) := by
                rw [hel]
                rw [place_cons, follow_dotdot]
              rw [hfo]
              by_cases hne : es = []
              · subst hne
                rw [if_neg (by simp [absPath]), if_neg (by simp), ih rest hf'' [] (by simp)]
                rfl
              · have := (absPath_length hes).2 hne
                rw [if_pos (by omega), backtrack_absPath hes hne,
                  ih rest hf'' _ fun e he => hes e (List.dropLast_subset _ he)]
          · rw [if_neg h2]
            dsimp only
            have hname : (x :: rest).takeWhile (fun x => decide (x ≠ slash)) = x :: rest.takeWhile (fun x => decide (x ≠ 47)) := by
              rw [List.takeWhile_cons, if_pos (by simpa using hx)]; rfl
            have hdrop : (x :: rest).dropWhile (fun x => decide (x ≠ slash)) = rest.dropWhile (fun x => decide (x ≠ 47)) := by
              rw [List.dropWhile_cons, if_pos (by simpa using hx)]; rfl
            rw [hname, hdrop, elems_cons hx']
            have hel : Elem (x :: rest.takeWhile (fun x => decide (x ≠ 47))) :=
              elems_elem (x :: rest) _ (by rw [elems_cons hx']; simp)
            have hfo : follow es (x :: rest.takeWhile (fun x => decide (x ≠ 47))) = es ++ [x :: rest.takeWhile (fun x => decide (x ≠ 47))] := by
              refine follow_of_proper ⟨hel.1, hel.2, ?_, ?_⟩
              · intro h
                simp only [List.cons.injEq] at h
                exact h1 ⟨h.1, takeWhile_nil_iff.1 h.2⟩
              · intro h
                simp only [List.cons.injEq] at h
                obtain ⟨hxx, h⟩ := h
                match rest, h with
                | y :: rest, h =>
                  by_cases hy : y = 47
                  · simp [List.takeWhile_cons, hy] at h
                  · simp only [List.takeWhile_cons, decide_eq_true_eq, hy, not_false_iff, if_true, decide_true, ne_eq, List.cons.injEq] at h
                    refine h2 ⟨hxx, by simp [h.1, dot], ?_⟩
                    exact takeWhile_nil_iff.1 h.2
            have hout : (if (true = true ∧ (absPath es).length ≠ 1) ∨ (true = false ∧ (absPath es).length ≠ 0) then absPath es ++ [slash]
                else absPath es) ++ x :: rest.takeWhile (fun x => decide (x ≠ 47)) =
                absPath (es ++ [x :: rest.takeWhile (fun x => decide (x ≠ 47))]) := by
              by_cases hne : es = []
              · subst hne
                simp [absPath]
              · have := (absPath_length hes).2 hne
                rw [if_pos (.inl ⟨rfl, by omega⟩), absPath_append es hne]
                simp [slash]
            rw [hout]
            have hlen := (List.dropWhile_suffix (l := rest) (fun x => decide (x ≠ 47))).length_le
            rw [ih _ (by omega) _ (by
              intro e he
              rcases List.mem_append.1 he with h | h
              · exact hes e h
              · rw [List.mem_singleton.1 h]; exact hel)]
            show _ = absPath (place (follow es _) _)
            rw [hfo]

/-- `path.Clean` of an absolute path: the place its elements lead to from "/". -/
theorem pathClean_abs {p : Bytes} (h : p.head? = some 47) : pathClean p = absPath (place [] (elems p)) := by
  match p, h with
  | x :: p, h =>
    simp only [List.head?_cons, Option.some.injEq] at h
    subst h
    unfold pathClean
    rw [if_neg (by simp)]
    dsimp only
    have hh : ((47 : UInt8) :: p).head? = some slash := rfl
    simp only [if_pos hh]
    have := cleanLoop_rooted (47 :: p : Bytes).length p (by simp) [] (by simp)
    have e1 : absPath [] = [slash] := rfl
    rw [e1] at this
    rw [List.tail_cons, this, elems_slash, if_neg]
    intro h
    have := absPath_head (place [] (elems p))
    rw [h] at this
    cases this

/-- `path.Join` onto an absolute path -/
theorem pathJoin_abs {a : Bytes} (h : a.head? = some 47) (b : Bytes) :
    pathJoin a b = absPath (place [] (elems (a ++ 47 :: b))) := by
  have ha : a ≠ [] := by rintro rfl; cases h
  unfold pathJoin
  rw [if_pos ha]
  refine pathClean_abs ?_
  match a, h with
  | x :: a, h => simpa using h

theorem elems_join (a b : Bytes) : elems (a ++ 47 :: b) = elems a ++ elems b := by
  induction hn : a.length using Nat.strongRecOn generalizing a with
  | ind n ih =>
    cases a with
    | nil => simp [elems_slash, elems_nil]
    | cons x a =>
      by_cases hx : x = 47
      · subst hx
        rw [List.cons_append, elems_slash, elems_slash]
        exact ih a.length (by rw [← hn]; simp) a rfl
      · rw [List.cons_append, elems_cons hx, elems_cons hx]
        have hs := (List.dropWhile_suffix (l := a) (fun x => decide (x ≠ 47))).length_le
        have h1 : (a ++ 47 :: b).takeWhile (fun x => decide (x ≠ 47)) = a.takeWhile (fun x => decide (x ≠ 47)) ∧
            ((a ++ 47 :: b).dropWhile (fun x => decide (x ≠ 47))) =
              a.dropWhile (fun x => decide (x ≠ 47)) ++ 47 :: b := by
          clear ih hs hn
          induction a with
          | nil => simp
          | cons y a ih =>
            by_cases hy : y = 47
            · simp [hy]
            · simp [List.takeWhile_cons, List.dropWhile_cons, hy] at ih ⊢
              exact ih
        rw [h1.1, h1.2, ih _ (by rw [← hn]; simp only [List.length_cons]; omega) _ rfl]
        rfl

theorem elems_absPath' {es : List Bytes} (hes : ∀ e ∈ es, Elem e) : elems (absPath es) = es := by
  have := elems_absPath es hes [] (.inl rfl)
  simpa [elems_nil] using this

/-- `path.Join` of a clean absolute path and anything: follow the elements. -/
theorem pathJoin_place {es : List Bytes} (hes : ∀ e ∈ es, Proper e) (b : Bytes) :
    pathJoin (absPath es) b = absPath (place es (elems b)) := by
  rw [pathJoin_abs (absPath_head es), elems_join, elems_absPath' fun e he => Proper.elem (hes e he), place_append,
    place_of_proper hes, List.nil_append]

/-- the same for any absolute path -/
theorem pathJoin_root {a : Bytes} (h : a.head? = some 47) (b : Bytes) :
    pathJoin a b = absPath (place (place [] (elems a)) (elems b)) := by
  rw [pathJoin_abs h, elems_join, place_append]

theorem dropWhile_elem {e : Bytes} (he : 47 ∉ e) (q : Bytes) :
    (e ++ 47 :: q).dropWhile (fun x => decide (x ≠ slash)) = 47 :: q := by
  rw [List.dropWhile_append_of_pos]
  · rw [List.dropWhile_cons, if_neg (by simp [slash])]
  · intro x hx
    have : x ≠ 47 := by rintro rfl; exact he hx
    exact decide_eq_true this

theorem pathDir_place {es : List Bytes} (hes : ∀ e ∈ es, Proper e) : pathDir (absPath es) = absPath es.dropLast := by
  unfold pathDir
  by_cases hne : es = []
  · subst hne; decide
  · obtain ⟨es', e, rfl⟩ : ∃ es' e, es = es' ++ [e] := ⟨es.dropLast, es.getLast hne, (List.dropLast_concat_getLast hne).symm⟩
    have he : Proper e := hes e (by simp)
    have hes' : ∀ x ∈ es', Proper x := fun x hx => hes x (by simp [hx])
    rw [List.dropLast_concat]
    have hsp : pathSplitDir (absPath (es' ++ [e])) = es'.flatMap (47 :: ·) ++ [47] := by
      have h1 : absPath (es' ++ [e]) = es'.flatMap (47 :: ·) ++ 47 :: e := by
        rw [absPath_ne _ (by simp)]; simp
      unfold pathSplitDir
      rw [h1, List.reverse_append, List.reverse_cons]
      have : e.reverse ++ [47] ++ (es'.flatMap (47 :: ·)).reverse = e.reverse ++ 47 :: (es'.flatMap (47 :: ·)).reverse := by simp
      rw [this, dropWhile_elem (by simpa using he.2.1)]
      simp
    rw [hsp, pathClean_abs]
    · rw [elems_flatMap es' (fun x hx => Proper.elem (hes' x hx)) [47] (.inr rfl)]
      rw [elems_slash, elems_nil, List.append_nil, place_of_proper hes', List.nil_append]
    · cases es' <;> simp

end Ninep
