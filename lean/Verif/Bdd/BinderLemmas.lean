import Verif.Bdd.Binder
import Verif.Bdd.HistLemmas
/-
Generated variable names are fresh when the names in the program do not end in digits.
-/
namespace Voss.Bdd

theorem decimal_digit (n : Nat) : ∀ c ∈ decimal n, c.isDigit = true := by
  intro c hc
  exact Nat.isDigit_of_mem_toDigits (by omega) (by omega) hc

theorem decimal_inj {m n : Nat} (h : decimal m = decimal n) : m = n := by
  have h1 := Nat.ofDigitChars_toDigits (b := 10) (n := m) (by omega) (by omega)
  have h2 := Nat.ofDigitChars_toDigits (b := 10) (n := n) (by omega) (by omega)
  unfold decimal at h
  rw [h] at h1
  rw [← h1, h2]

/-- A list that ends in a non-digit (or is empty), followed by digits: the split is unique. -/
theorem split_digits {a b d e : List Char} (hd : ∀ c ∈ d, c.isDigit = true) (he : ∀ c ∈ e, c.isDigit = true)
    (ha : ∀ c, a.getLast? = some c → c.isDigit = false) (hb : ∀ c, b.getLast? = some c → c.isDigit = false)
    (h : a ++ d = b ++ e) : a = b ∧ d = e := by
  have key : ∀ (a b d e : List Char), (∀ c ∈ d, c.isDigit = true) → 
      (∀ c, b.getLast? = some c → c.isDigit = false) → a ++ d = b ++ e → b.length ≤ a.length := by
    intro a b d e hd hb h
    by_contra hlt
    rw [not_le] at hlt
    have hne : b ≠ [] := by rintro rfl; simp at hlt
    have hl := List.getLast?_eq_some_getLast hne
    have hdig := hb _ hl
    have hmem : b.getLast hne ∈ d := by
      have hidx : (a ++ d)[b.length - 1]? = some (b.getLast hne) := by
        rw [h, List.getElem?_append_left (by have := List.length_pos_iff.2 hne; omega)]
        rw [← List.getLast?_eq_getElem?]; exact hl
      rw [List.getElem?_append_right (by omega)] at hidx
      exact List.mem_of_getElem? hidx
    rw [hd _ hmem] at hdig
    exact absurd hdig (by simp)
  have h1 := key a b d e hd hb h
  have h2 := key b a e d he ha h.symm
  exact List.append_inj h (by omega)

theorem quantName_inj {x y : String} {m n : Nat} (hx : ∀ c, x.toList.getLast? = some c → c.isDigit = false)
    (hy : ∀ c, y.toList.getLast? = some c → c.isDigit = false) (h : quantName x m = quantName y n) : m = n := by
  have h1 := ofList_inj h
  rw [List.cons.injEq] at h1
  exact decimal_inj (split_digits (decimal_digit m) (decimal_digit n) hx hy h1.2).2

/-- A name made by `quantName` with a counter below `n`. -/
def Gen (n : Nat) (name : String) : Prop :=
  ∃ x m, m < n ∧ (∀ c, x.toList.getLast? = some c → c.isDigit = false) ∧ name = quantName x m

theorem sem_setN (e : QE) (hf : e.FreeOK) (β : List Bool) (η : NEnv) (m : String) (hm : m.toList.head? = some '%')
    (b : Bool) : e.sem β (setN η m b) = e.sem β η := by
  induction e generalizing β with
  | const => rfl
  | var name =>
    simp only [QE.sem, setN]
    have : name ≠ m := by rintro rfl; exact hf hm
    simp [this]
  | bound => rfl
  | not e ih => simp only [QE.sem, ih hf]
  | bin op e1 e2 ih1 ih2 => simp only [QE.sem, ih1 hf.1, ih2 hf.2]
  | quant univ x e ih => simp only [QE.sem, ih hf]

theorem nQuant_one (univ : Bool) (m : String) (G : NEnv → Bool) :
    nQuant univ (fun η => η m) G = fun η =>
      if univ then G (setN η m true) && G (setN η m false) else G (setN η m true) || G (setN η m false) := by
  funext η
  have hset : ∀ η' : NEnv, (∀ n, n ∉ [m] → η' n = η n) → η' = setN η m (η' m) := by
    intro η' h
    funext n
    unfold setN
    split
    · next hn => rw [hn]
    · next hn => exact h n (by simp [hn])
  have hset' : ∀ b, ∀ n, n ∉ [m] → setN η m b n = η n := by
    intro b n hn
    have : n ≠ m := by simpa using hn
    simp [setN, this]
  have e1 : (fun η : NEnv => η m) = fun η => [m].all η := by funext η; simp
  rw [e1, nQuant_names]
  unfold qNames
  rw [Bool.eq_iff_iff]
  cases univ with
  | true =>
    simp only [if_true, decide_eq_true_eq, Bool.and_eq_true]
    constructor
    · intro h; exact ⟨h _ (hset' true), h _ (hset' false)⟩
    · rintro ⟨h1, h2⟩ η' ha
      rw [hset η' ha]
      cases η' m
      · exact h2
      · exact h1
  | false =>
    simp only [Bool.false_eq_true, if_false, decide_eq_true_eq, Bool.or_eq_true]
    constructor
    · rintro ⟨η', ha, h⟩
      rw [hset η' ha] at h
      cases hm : η' m <;> rw [hm] at h
      · exact Or.inr h
      · exact Or.inl h
    · rintro (h | h)
      · exact ⟨_, hset' true, h⟩
      · exact ⟨_, hset' false, h⟩

theorem evalQ_spec : ∀ (e : QE) (s : S) (cnt : Nat) (env : List F) (ns : List String), Inv s →
    List.Forall₂ (fun f n => NDen s f (fun η => η n)) env ns → (∀ n ∈ ns, Gen cnt n) →
    e.Closed ns.length → e.FreeOK → e.BinderOK →
    ∃ f s' cnt', evalQ s cnt env e = some (f, s', cnt') ∧ Inv s' ∧ Keeps s s' ∧ cnt ≤ cnt' ∧
      NDen s' f (fun η => e.sem (ns.map η) η) := by
  intro e
  induction e with
  | const b =>
    intro s cnt env ns hI _ _ _ _ _
    refine ⟨_, s, cnt, rfl, hI, Keeps.refl s, le_refl _, ?_⟩
    cases b
    · exact nden_zero s
    · exact (nden_zero s).not
  | var name =>
    intro s cnt env ns hI _ _ _ _ _
    obtain ⟨f, s', e1, I, K, d⟩ := nVar_spec hI name
    exact ⟨f, s', cnt, by simp only [evalQ, e1, Option.bind_eq_bind, Option.bind_some], I, K, le_refl _, d⟩
  | bound k =>
    intro s cnt env ns hI hE _ hc _ _
    rcases forall₂_at hE k with ⟨_, b⟩ | ⟨f, n, a, b, d⟩
    · rw [List.getElem?_eq_none_iff] at b; simp only [QE.Closed] at hc; omega
    · refine ⟨f, s, cnt, by simp only [evalQ, a, Option.bind_eq_bind, Option.bind_some], hI, Keeps.refl s,
        le_refl _, ?_⟩
      have : (fun η : NEnv => (QE.bound k).sem (ns.map η) η) = fun η => η n := by
        funext η
        simp [QE.sem, List.getD_eq_getElem?_getD, b]
      rw [this]; exact d
  | not e ih =>
    intro s cnt env ns hI hE hG hc hf hb
    obtain ⟨f, s', c', e1, I, K, hle, d⟩ := ih s cnt env ns hI hE hG hc hf hb
    exact ⟨bNot f, s', c', by simp only [evalQ, e1, Option.bind_eq_bind, Option.bind_some], I, K, hle, d.not⟩
  | bin op x y ih1 ih2 =>
    intro s cnt env ns hI hE hG hc hf hb
    obtain ⟨f, s1, c1, e1, I1, K1, hle1, d1⟩ := ih1 s cnt env ns hI hE hG hc.1 hf.1 hb.1
    obtain ⟨g, s2, c2, e2, I2, K2, hle2, d2⟩ := ih2 s1 c1 env ns I1
      (forall₂_imp hE fun _ _ d => d.keeps hI K1)
      (fun n hn => by obtain ⟨x, m, h1, h2⟩ := hG n hn; exact ⟨x, m, by omega, h2⟩) hc.2 hf.2 hb.2
    obtain ⟨r, s3, e3, I3, E3, d3⟩ := bin_spec op I2 (d1.keeps I1 K2) d2
    exact ⟨r, s3, c2, by simp only [evalQ, e1, e2, e3, Option.bind_eq_bind, Option.bind_some], I3,
      (K1.trans K2).trans E3.keeps, by omega, d3⟩
  | quant univ x e ih =>
    intro s cnt env ns hI hE hG hc hf hb
    obtain ⟨v, s1, e1, I1, K1, d1⟩ := nVar_spec hI (quantName x cnt)
    obtain ⟨f, s2, c2, e2, I2, K2, hle2, d2⟩ := ih s1 (cnt + 1) (v :: env) (quantName x cnt :: ns) I1
      (.cons d1 (forall₂_imp hE fun _ _ d => d.keeps hI K1))
      (by
        intro n hn
        rcases List.mem_cons.1 hn with rfl | hn
        · exact ⟨x, cnt, by omega, hb.1, rfl⟩
        · obtain ⟨y, m, h1, h2⟩ := hG n hn
          exact ⟨y, m, by omega, h2⟩)
      (by rw [List.length_cons]; exact hc) hf hb.2
    obtain ⟨r, s3, e3, I3, E3, d3⟩ := nQuant_spec univ I2 (d1.keeps I1 K2) d2
    refine ⟨r, s3, c2, ?_, I3, (K1.trans K2).trans E3.keeps, by omega, ?_⟩
    · simp only [evalQ, e1, e2, Option.bind_eq_bind, Option.bind_some]
      cases univ <;> simp only [if_true, Bool.false_eq_true, if_false] at e3 ⊢ <;>
        simp only [e3, Option.bind_some]
    · rw [nQuant_one] at d3
      have hhead : (quantName x cnt).toList.head? = some '%' := by simp [quantName]
      have hmap : ∀ (η : NEnv) b, ns.map (setN η (quantName x cnt) b) = ns.map η := by
        intro η b
        apply List.map_congr_left
        intro n hn
        have : n ≠ quantName x cnt := by
          obtain ⟨y, m, h1, h2, h3⟩ := hG n hn
          intro he
          rw [h3] at he
          have := quantName_inj h2 hb.1 he
          omega
        simp [setN, this]
      have hself : ∀ (η : NEnv) b, setN η (quantName x cnt) b (quantName x cnt) = b := by
        intro η b; simp [setN]
      simp only [List.map_cons, hmap, hself, sem_setN e hf _ _ _ hhead] at d3
      exact d3

end Voss.Bdd
