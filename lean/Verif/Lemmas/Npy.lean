import Verif.Model.Npy
import Verif.Spec.Npy

/-! # The decoder of the specification reads what the model writes -/

namespace DDC.NpyL

open DDC DDC.Spec.Npy

theorem takeWhile_append {p : Char → Bool} {l r : List Char} (hl : ∀ c ∈ l, p c = true)
    (hr : ∀ c r', r = c :: r' → p c = false) :
    (l ++ r).takeWhile p = l ∧ (l ++ r).dropWhile p = r := by
  induction l with
  | nil =>
    cases r with
    | nil => simp
    | cons c r => simp [hr c r rfl]
  | cons a l ih =>
    have := hl a (by simp)
    obtain ⟨h1, h2⟩ := ih (fun c hc => hl c (by simp [hc]))
    simp [this, h1, h2]

theorem pNat_digits (n : Nat) {r : List Char} (hr : ∀ c r', r = c :: r' → c.isDigit = false) :
    pNat (Nat.toDigits 10 n ++ r) = some (n, r) := by
  obtain ⟨h1, h2⟩ := takeWhile_append (p := Char.isDigit) (l := Nat.toDigits 10 n) (r := r)
    (fun c hc => Nat.isDigit_of_mem_toDigits (by decide) (by decide) hc) hr
  rw [pNat, h1, h2]
  have h3 : Nat.toDigits 10 n ≠ [] := Nat.toDigits_ne_nil
  have h4 : digitsVal (Nat.toDigits 10 n) = n := Nat.ofDigitChars_ten_toDigits
  split
  · contradiction
  · rw [h4]

theorem pStr_ok {s r : List Char} (h : ∀ c ∈ s, c ≠ '\'') : pStr (s ++ '\'' :: r) = some (s, r) := by
  obtain ⟨h1, h2⟩ := takeWhile_append (p := (· != '\'')) (l := s) (r := '\'' :: r)
    (fun c hc => by simpa using h c hc) (by intro c r' h; injection h with h _; subst h; rfl)
  rw [pStr, h1, h2]

theorem skip_space (cs : List Char) : skip (' ' :: cs) = skip cs := by simp [skip]

theorem skip_other {c : Char} (h : c ≠ ' ') (cs : List Char) : skip (c :: cs) = c :: cs := by
  simp [skip, h]

theorem pItems_space (fuel : Nat) (cs : List Char) : pItems fuel (' ' :: cs) = pItems fuel cs := by
  cases fuel with
  | zero => rfl
  | succ f => simp only [pItems, skip_space]

/-- The characters between the parentheses of the shape. -/
def body (l : List Nat) : List Char := l.flatMap (fun n => Nat.toDigits 10 n ++ [',', ' '])

theorem digits_head (n : Nat) : ∃ c cs, Nat.toDigits 10 n = c :: cs ∧ c.isDigit = true := by
  cases h : Nat.toDigits 10 n with
  | nil => exact absurd h Nat.toDigits_ne_nil
  | cons c cs =>
    exact ⟨c, cs, rfl, Nat.isDigit_of_mem_toDigits (b := 10) (n := n) (by decide) (by decide) (by rw [h]; simp)⟩

theorem pItems_body (l : List Nat) (rest : List Char) {fuel : Nat} (hf : l.length < fuel) :
    pItems fuel (body l ++ ')' :: rest) = some (l, true, rest) := by
  induction l generalizing fuel with
  | nil =>
    obtain ⟨f, rfl⟩ : ∃ f, fuel = f + 1 := ⟨fuel - 1, by simp at hf; omega⟩
    simp [body, pItems, skip]
  | cons n l ih =>
    obtain ⟨f, rfl⟩ : ∃ f, fuel = f + 1 := ⟨fuel - 1, by simp at hf; omega⟩
    have hf' : l.length < f := by simp at hf; omega
    have e : body (n :: l) ++ ')' :: rest = Nat.toDigits 10 n ++ (',' :: ' ' :: (body l ++ ')' :: rest)) := by
      simp [body]
    obtain ⟨c, cs, hc, hd⟩ := digits_head n
    have hcs : c ≠ ' ' := by intro h; subst h; exact absurd hd (by decide)
    have hcp : c ≠ ')' := by intro h; subst h; exact absurd hd (by decide)
    have hs : skip (body (n :: l) ++ ')' :: rest) = body (n :: l) ++ ')' :: rest := by
      rw [e, hc, List.cons_append, skip_other hcs]
    have hn : pNat (body (n :: l) ++ ')' :: rest) = some (n, ',' :: ' ' :: (body l ++ ')' :: rest)) := by
      rw [e]
      exact pNat_digits n (by intro c r' h; injection h with h _; subst h; rfl)
    rw [pItems, hs]
    have hm : ∀ r, body (n :: l) ++ ')' :: rest ≠ ')' :: r := by
      intro r h
      rw [e, hc, List.cons_append] at h
      injection h with h _
      exact hcp h
    split
    · rename_i r h
      exact absurd h (hm r)
    · simp only [hn, Option.bind_eq_bind, Option.bind_some, skip_other (show ',' ≠ ' ' by decide),
        pItems_space, ih hf']

theorem pEntries_step {f : Nat} {cs r r1 r2 r3 r4 r5 : List Char} {k : List Char} {v : PyVal}
    {l : List (List Char × PyVal)} (h1 : skip cs = '\'' :: r) (h2 : pStr r = some (k, r1))
    (h3 : skip r1 = ':' :: r2) (h4 : pVal r2 = some (v, r3)) (h5 : skip r3 = ',' :: r4)
    (h6 : pEntries f r4 = some (l, r5)) : pEntries (f + 1) cs = some ((k, v) :: l, r5) := by
  simp [pEntries, h1, h2, h3, h4, h5, h6]

theorem pEntries_end {f : Nat} {cs r : List Char} (h : skip cs = '}' :: r) :
    pEntries (f + 1) cs = some ([], r) := by
  simp [pEntries, h]

theorem skip_pad (n : Nat) : skip (List.replicate n ' ' ++ ['\n']) = ['\n'] := by
  induction n with
  | zero => simp [skip]
  | succ n ih => rw [List.replicate_succ, List.cons_append, skip_space, ih]

theorem length_body (l : List Nat) : l.length ≤ (body l).length := by
  induction l with
  | nil => simp
  | cons n l ih =>
    have e : body (n :: l) = Nat.toDigits 10 n ++ [',', ' '] ++ body l := by simp [body]
    rw [e]
    simp only [List.length_append, List.length_cons, List.length_nil]
    omega

/-- The dictionary with its padding. -/
theorem pHeader_ok {o k : Char} (ho : o = '<' ∨ o = '>' ∨ o = '|') (hk : k ≠ '\'') (size : Nat) (f : Bool)
    (shape : List Nat) (pad : Nat) :
    pHeader ("{'descr': '".toList ++ (o :: k :: Nat.toDigits 10 size) ++ "', 'fortran_order': ".toList ++
      (if f then "True".toList else "False".toList) ++ ", 'shape': ".toList ++
      ('(' :: body shape ++ ")".toList) ++ ", }".toList ++ (List.replicate pad ' ' ++ ['\n'])) =
    some (⟨o, k, size⟩, f, shape) := by
  set tail := List.replicate pad ' ' ++ ['\n'] with ht
  set c3 : List Char := " 'shape': ".toList ++ ('(' :: body shape ++ ")".toList) ++ ", }".toList ++ tail with hc3
  set c2 : List Char := " 'fortran_order': ".toList ++ (if f then "True".toList else "False".toList) ++ ',' :: c3
    with hc2
  have hdq : ∀ c ∈ o :: k :: Nat.toDigits 10 size, c ≠ '\'' := by
    intro c hc
    rcases List.mem_cons.1 hc with rfl | hc
    · rcases ho with rfl | rfl | rfl <;> decide
    rcases List.mem_cons.1 hc with rfl | hc
    · exact hk
    · intro h
      subst h
      exact absurd (Nat.isDigit_of_mem_toDigits (by decide) (by decide) hc) (by decide)
  have hd : pDescr (o :: k :: Nat.toDigits 10 size) = some ⟨o, k, size⟩ := by
    have := pNat_digits size (r := []) (by simp)
    rw [List.append_nil] at this
    rw [pDescr, if_pos ho, this]
  have e : "{'descr': '".toList ++ (o :: k :: Nat.toDigits 10 size) ++ "', 'fortran_order': ".toList ++
      (if f then "True".toList else "False".toList) ++ ", 'shape': ".toList ++
      ('(' :: body shape ++ ")".toList) ++ ", }".toList ++ tail =
      '{' :: '\'' :: ("descr".toList ++ '\'' :: (':' :: ' ' :: '\'' ::
        ((o :: k :: Nat.toDigits 10 size) ++ '\'' :: (',' :: c2)))) := by
    simp [hc2, hc3]
  set X : List Char := '\'' :: ("descr".toList ++ '\'' :: (':' :: ' ' :: '\'' ::
        ((o :: k :: Nat.toDigits 10 size) ++ '\'' :: (',' :: c2)))) with hX
  have hq : ∀ s : List Char, (∀ c ∈ s, c ≠ '\'') → ∀ r, pStr (s ++ '\'' :: r) = some (s, r) :=
    fun s hs r => pStr_ok hs
  have hlen : ∃ g, X.length + 1 = g + 4 := ⟨X.length + 1 - 4, by rw [hX]; simp⟩
  obtain ⟨g, hg⟩ := hlen
  -- the three values
  have v1 : pVal (' ' :: '\'' :: ((o :: k :: Nat.toDigits 10 size) ++ '\'' :: (',' :: c2))) =
      some (.str (o :: k :: Nat.toDigits 10 size), ',' :: c2) := by
    have := hq _ hdq (',' :: c2)
    rw [pVal, skip_space, skip_other (by decide)]
    simp only [this, Option.bind_eq_bind, Option.bind_some]
  have v2 : pVal (' ' :: ((if f then "True".toList else "False".toList) ++ ',' :: c3)) =
      some (.bool f, ',' :: c3) := by
    rw [pVal, skip_space]
    cases f <;> simp [skip_other]
  have v3 : pVal (' ' :: '(' :: (body shape ++ ')' :: (',' :: ' ' :: '}' :: tail))) =
      some (.tuple shape, ',' :: ' ' :: '}' :: tail) := by
    have hl : shape.length < (body shape ++ ')' :: (',' :: ' ' :: '}' :: tail)).length + 1 := by
      have := length_body shape
      simp only [List.length_append, List.length_cons]
      omega
    have := pItems_body shape (',' :: ' ' :: '}' :: tail) hl
    rw [pVal, skip_space, skip_other (by decide)]
    simp only [this, Option.bind_eq_bind, Option.bind_some]
    rw [if_neg (by simp)]
  -- the three entries
  have s3 : pEntries (g + 1 + 1) c3 = some ([("shape".toList, .tuple shape)], tail) := by
    refine pEntries_step (r := "shape".toList ++ '\'' :: (':' :: ' ' :: '(' :: (body shape ++ ')' ::
      (',' :: ' ' :: '}' :: tail)))) (r4 := ' ' :: '}' :: tail) ?_ (hq "shape".toList (by decide) _) ?_ v3 ?_ ?_
    · rw [hc3]
      simp [skip]
    · simp [skip]
    · simp [skip]
    · exact pEntries_end (by simp [skip])
  have s2 : pEntries (g + 1 + 1 + 1) c2 =
      some ([("fortran_order".toList, .bool f), ("shape".toList, .tuple shape)], tail) := by
    refine pEntries_step (r := "fortran_order".toList ++ '\'' :: (':' :: ' ' ::
      ((if f then "True".toList else "False".toList) ++ ',' :: c3))) (r4 := c3) ?_
      (hq "fortran_order".toList (by decide) _) ?_ v2 ?_ s3
    · rw [hc2]
      simp [skip]
    · simp [skip]
    · simp [skip]
  have s1 : pEntries (g + 4) X =
      some ([("descr".toList, .str (o :: k :: Nat.toDigits 10 size)), ("fortran_order".toList, .bool f),
        ("shape".toList, .tuple shape)], tail) := by
    refine pEntries_step (r := "descr".toList ++ '\'' :: (':' :: ' ' :: '\'' ::
        ((o :: k :: Nat.toDigits 10 size) ++ '\'' :: (',' :: c2)))) (r4 := c2) ?_ (hq "descr".toList (by decide) _) ?_ v1 ?_ s2
    · rw [hX]
      simp [skip]
    · simp [skip]
    · simp [skip]
  rw [e, pHeader, skip_other (by decide)]
  simp only [hg, s1, Option.bind_eq_bind, Option.bind_some]
  rw [ht, skip_pad]
  have k1 : ∀ v1 v2 v3 : PyVal, key "descr" [("descr".toList, v1), ("fortran_order".toList, v2), ("shape".toList, v3)] = some v1 ∧
    key "fortran_order" [("descr".toList, v1), ("fortran_order".toList, v2), ("shape".toList, v3)] = some v2 ∧
    key "shape" [("descr".toList, v1), ("fortran_order".toList, v2), ("shape".toList, v3)] = some v3 := by
    intro v1 v2 v3
    simp [key]
  rw [if_pos ⟨rfl, rfl⟩, (k1 _ _ _).1, (k1 _ _ _).2.1, (k1 _ _ _).2.2]
  simp only [hd, Option.bind_some]

end DDC.NpyL
