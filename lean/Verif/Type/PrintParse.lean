import Verif.Type.PrintLemmas
import Verif.Type.PrintSpec
/-
Printed types can be read again.
-/
namespace Voss.TC

mutual
/-- The text of a type whose variables are numbers of stars. -/
def pr (p : Nat) : Ty → List Tok
  | .var v => [.stars v]
  | .con .arrow (.cons a (.cons b _)) => paren (p > 2) (pr 3 a ++ .arrow :: pr 2 b)
  | .con .tuple (.cons a (.cons b _)) => paren (p > 2) (pr 2 a ++ .hash :: pr 2 b)
  | .con .ref (.cons a _) => paren (p > 1) (pr 1 a ++ [.ref])
  | .con .list (.cons a _) => paren (p > 0) (pr 9 a ++ [.list])
  | .con .tbl (.cons a (.cons b _)) => paren (p > 1) (.lcurl :: pr 1 a ++ .commaSp :: pr 1 b ++ [.rcurl, .word "tbl"])
  | .con (.concrete x) .nil => [.word x]
  | .con (.concrete x) (.cons a as) => .lcurl :: pr p a ++ prRest p as ++ [.rcurl, .word x]
  | .con o _ => [.word o.word]
def prRest (p : Nat) : Tys → List Tok
  | .nil => []
  | .cons a as => .comma :: pr p a ++ prRest p as
end

theorem annotL_app (s : Stars) (l l' : List Nat) : annotL s (l ++ l') = annotL (annotL s l) l' := by
  simp [annotL]

set_option maxHeartbeats 1000000 in
mutual
theorem print_eq {ar : String → Nat} (f : Nat → Nat) : ∀ (t : Ty) (p : Nat) (s : Stars), t.WF ar →
    (∀ v ∈ t.vars, (annotL s t.vars).cnt v = some (f v)) →
    print p s t = some (pr p (t.sub fun v => .var (f v)), annotL s t.vars)
  | .var v, p, s, _, h => by
    have := h v (by simp [Ty.vars])
    simp only [Ty.vars, annotL, List.foldl] at this
    rw [star_fst] at this
    simp only [print, Ty.sub, pr, Ty.vars, annotL, List.foldl]
    rw [Option.some.inj this]
  | .con o ts, p, s, w, h => by
    obtain ⟨wl, wt⟩ := w
    have two : ∀ a b, ts = .cons a (.cons b .nil) → ∀ pa pb,
        print pa s a = some (pr pa (a.sub fun v => .var (f v)), annotL s a.vars) ∧
        print pb (annotL s a.vars) b = some (pr pb (b.sub fun v => .var (f v)), annotL s ts.vars) := by
      rintro a b rfl pa pb
      simp only [Ty.vars, Tys.vars, List.append_nil] at h ⊢
      rw [annotL_app] at h ⊢
      refine ⟨print_eq f a pa s wt.1 fun v hv => ?_, print_eq f b pb _ wt.2.1 fun v hv => h v (by simp [hv])⟩
      have h1 := annotL_mem a.vars s hv
      obtain ⟨k, hk⟩ := Option.isSome_iff_exists.1 h1
      have := annotL_keep b.vars _ hk
      rw [h v (by simp [hv])] at this
      rw [hk, this]
    have one : ∀ a, ts = .cons a .nil → ∀ pa,
        print pa s a = some (pr pa (a.sub fun v => .var (f v)), annotL s ts.vars) := by
      rintro a rfl pa
      simp only [Ty.vars, Tys.vars, List.append_nil] at h ⊢
      exact print_eq f a pa s wt.1 h
    have get2 : ts.length = 2 → ∃ a b, ts = .cons a (.cons b .nil) := by
      intro e
      match ts, e with
      | .cons a (.cons b .nil), _ => exact ⟨a, b, rfl⟩
    have get1 : ts.length = 1 → ∃ a, ts = .cons a .nil := by
      intro e
      match ts, e with
      | .cons a .nil, _ => exact ⟨a, rfl⟩
    have get0 : ts.length = 0 → ts = .nil := by
      intro e
      match ts, e with
      | .nil, _ => rfl
    cases o with
    | concrete x =>
      match hts : ts with
      | .nil => simp [print, Ty.sub, Tys.sub, pr, Ty.vars, Tys.vars, annotL]
      | .cons a as =>
        simp only [Ty.vars, Tys.vars] at h ⊢
        rw [annotL_app] at h ⊢
        have e1 := print_eq f a p s wt.1 fun v hv => by
          have h1 := annotL_mem a.vars s hv
          obtain ⟨k, hk⟩ := Option.isSome_iff_exists.1 h1
          have := annotL_keep as.vars _ hk
          rw [h v (by simp [hv])] at this
          rw [hk, this]
        have e2 := printRest_eq f as p _ wt.2 fun v hv => h v (by simp [hv])
        simp [print, e1, e2, Ty.sub, Tys.sub, pr]
    | arrow =>
      obtain ⟨a, b, rfl⟩ := get2 wl
      obtain ⟨e1, e2⟩ := two a b rfl 3 2
      simp [print, e1, e2, Ty.sub, Tys.sub, pr, Ty.vars]
    | tuple =>
      obtain ⟨a, b, rfl⟩ := get2 wl
      obtain ⟨e1, e2⟩ := two a b rfl 2 2
      simp [print, e1, e2, Ty.sub, Tys.sub, pr, Ty.vars]
    | tbl =>
      obtain ⟨a, b, rfl⟩ := get2 wl
      obtain ⟨e1, e2⟩ := two a b rfl 1 1
      simp [print, e1, e2, Ty.sub, Tys.sub, pr, Ty.vars]
    | list =>
      obtain ⟨a, rfl⟩ := get1 wl
      simp [print, one a rfl 9, Ty.sub, Tys.sub, pr, Ty.vars]
    | ref =>
      obtain ⟨a, rfl⟩ := get1 wl
      simp [print, one a rfl 1, Ty.sub, Tys.sub, pr, Ty.vars]
    | _ =>
      rw [get0 wl]
      simp [print, Ty.sub, Tys.sub, pr, Ty.vars, Tys.vars, annotL]
theorem printRest_eq {ar : String → Nat} (f : Nat → Nat) : ∀ (ts : Tys) (p : Nat) (s : Stars), ts.WF ar →
    (∀ v ∈ ts.vars, (annotL s ts.vars).cnt v = some (f v)) →
    printRest p s ts = some (prRest p (ts.sub fun v => .var (f v)), annotL s ts.vars)
  | .nil, p, s, _, _ => by simp [printRest, Tys.sub, prRest, Tys.vars, annotL]
  | .cons a as, p, s, w, h => by
    simp only [Tys.vars] at h ⊢
    rw [annotL_app] at h ⊢
    have e1 := print_eq f a p s w.1 fun v hv => by
      have h1 := annotL_mem a.vars s hv
      obtain ⟨k, hk⟩ := Option.isSome_iff_exists.1 h1
      have := annotL_keep as.vars _ hk
      rw [h v (by simp [hv])] at this
      rw [hk, this]
    have e2 := printRest_eq f as p _ w.2 fun v hv => h v (by simp [hv])
    simp [printRest, e1, e2, Tys.sub, prRest]
end

theorem typeText_eq {ar : String → Nat} (s : Stars) (t : Ty) (h : t.WF ar) : typeText s t = some (pr 0 (canon t)) := by
  rw [typeText, print_eq (num t.vars) t 0 _ h]
  · rfl
  · intro v hv
    refine annotL_num rfl (fun w hw => ?_) hv
    show (resetCnt s t).cnt w = none
    rw [reset_cnt, if_pos hw]

/-! ### Reading -/

def nameTy (w : String) : Ty :=
  match builtin w with
  | some o => .con o .nil
  | none => .con (.concrete w) .nil

def post (t : Ty) : List Tok → Ty × List Tok
  | .ref :: r => post (.con .ref (.cons t .nil)) r
  | .list :: r => post (.con .list (.cons t .nil)) r
  | r => (t, r)

mutual
def pAtom : Nat → List Tok → Option (Ty × List Tok)
  | _ + 1, .stars k :: r => some (.var k, r)
  | _ + 1, .word w :: r => some (nameTy w, r)
  | n + 1, .lpar :: r =>
    match pFull n r with
    | some (t, .rpar :: r) => some (t, r)
    | _ => none
  | n + 1, .lcurl :: r =>
    match pFull n r with
    | some (a, .commaSp :: r) =>
      match pFull n r with
      | some (b, .rcurl :: .word _ :: r) => some (.con .tbl (.cons a (.cons b .nil)), r)
      | _ => none
    | some (a, r) =>
      match pArgs n r with
      | some (as, x, r) => some (.con (.concrete x) (.cons a as), r)
      | none => none
    | none => none
  | _, _ => none
def pArgs : Nat → List Tok → Option (Tys × String × List Tok)
  | n + 1, .comma :: r =>
    match pFull n r with
    | some (a, r) =>
      match pArgs n r with
      | some (as, x, r) => some (.cons a as, x, r)
      | none => none
    | none => none
  | _ + 1, .rcurl :: .word x :: r => some (.nil, x, r)
  | _, _ => none
def pChain : Nat → List Tok → Option (Ty × List Tok)
  | n + 1, l =>
    match pAtom n l with
    | some (a, .arrow :: r) =>
      match pChain n r with
      | some (b, r) => some (.con .arrow (.cons a (.cons b .nil)), r)
      | none => none
    | some (a, .hash :: r) =>
      match pChain n r with
      | some (b, r) => some (.con .tuple (.cons a (.cons b .nil)), r)
      | none => none
    | o => o
  | _, _ => none
def pFull : Nat → List Tok → Option (Ty × List Tok)
  | n + 1, l =>
    match pChain n l with
    | some (t, r) => some (post t r)
    | none => none
  | _, _ => none
end

/-- What may follow a chain. -/
def okRest : List Tok → Bool
  | .arrow :: _ | .hash :: _ => false
  | _ => true

def At (t : Ty) (l : List Tok) : Prop := ∃ N, ∀ n, N ≤ n → ∀ r, pAtom n (l ++ r) = some (t, r)
def Ch (t : Ty) (l : List Tok) : Prop := ∃ N, ∀ n, N ≤ n → ∀ r, okRest r = true → pChain n (l ++ r) = some (t, r)
def Fu (t : Ty) (l : List Tok) : Prop := ∃ N, ∀ n, N ≤ n → ∀ r, okRest r = true → pFull n (l ++ r) = some (post t r)
def Ar (ts : Tys) (l : List Tok) : Prop :=
  ∃ N, ∀ n, N ≤ n → ∀ x r, pArgs n (l ++ .rcurl :: .word x :: r) = some (ts, x, r)

theorem succ_of_le {N n : Nat} (h : N + 1 ≤ n) : ∃ m, n = m + 1 ∧ N ≤ m := ⟨n - 1, by omega, by omega⟩

theorem At.ch {t l} (h : At t l) : Ch t l := by
  obtain ⟨N, h⟩ := h
  refine ⟨N + 1, fun n hn r hr => ?_⟩
  obtain ⟨m, rfl, hm⟩ := succ_of_le hn
  rw [pChain, h m hm]
  match r, hr with
  | [], _ => rfl
  | .stars _ :: _, _ | .word _ :: _, _ | .lpar :: _, _ | .rpar :: _, _ | .lcurl :: _, _ | .rcurl :: _, _ | .comma :: _, _
  | .commaSp :: _, _ | .ref :: _, _ | .list :: _, _ => rfl

theorem Ch.fu {t l} (h : Ch t l) : Fu t l := by
  obtain ⟨N, h⟩ := h
  refine ⟨N + 1, fun n hn r hr => ?_⟩
  obtain ⟨m, rfl, hm⟩ := succ_of_le hn
  rw [pFull, h m hm r hr]

theorem Fu.at {t l} (h : Fu t l) : At t (.lpar :: l ++ [.rpar]) := by
  obtain ⟨N, h⟩ := h
  refine ⟨N + 1, fun n hn r => ?_⟩
  obtain ⟨m, rfl, hm⟩ := succ_of_le hn
  have := h m hm (.rpar :: r) rfl
  simp only [List.cons_append, List.append_assoc, List.nil_append]
  rw [pAtom, this]
  rfl

theorem Ch.arrow {a b l l'} (h : At a l) (h' : Ch b l') : Ch (.con .arrow (.cons a (.cons b .nil))) (l ++ .arrow :: l') := by
  obtain ⟨N, h⟩ := h
  obtain ⟨N', h'⟩ := h'
  refine ⟨max N N' + 1, fun n hn r hr => ?_⟩
  obtain ⟨m, rfl, hm⟩ := succ_of_le hn
  rw [List.append_assoc, pChain, h m (by omega)]
  simp only [List.cons_append]
  rw [h' m (by omega) r hr]

theorem Ch.tuple {a b l l'} (h : At a l) (h' : Ch b l') : Ch (.con .tuple (.cons a (.cons b .nil))) (l ++ .hash :: l') := by
  obtain ⟨N, h⟩ := h
  obtain ⟨N', h'⟩ := h'
  refine ⟨max N N' + 1, fun n hn r hr => ?_⟩
  obtain ⟨m, rfl, hm⟩ := succ_of_le hn
  rw [List.append_assoc, pChain, h m (by omega)]
  simp only [List.cons_append]
  rw [h' m (by omega) r hr]

theorem Fu.ref {a l} (h : Fu a l) : Fu (.con .ref (.cons a .nil)) (l ++ [.ref]) := by
  obtain ⟨N, h⟩ := h
  refine ⟨N, fun n hn r hr => ?_⟩
  rw [List.append_assoc, h n hn _ rfl]
  rfl

theorem Fu.list {a l} (h : Fu a l) : Fu (.con .list (.cons a .nil)) (l ++ [.list]) := by
  obtain ⟨N, h⟩ := h
  refine ⟨N, fun n hn r hr => ?_⟩
  rw [List.append_assoc, h n hn _ rfl]
  rfl

theorem At.tbl {a b l l'} (h : Fu a l) (h' : Fu b l') :
    At (.con .tbl (.cons a (.cons b .nil))) (.lcurl :: l ++ .commaSp :: l' ++ [.rcurl, .word "tbl"]) := by
  obtain ⟨N, h⟩ := h
  obtain ⟨N', h'⟩ := h'
  refine ⟨max N N' + 1, fun n hn r => ?_⟩
  obtain ⟨m, rfl, hm⟩ := succ_of_le hn
  simp only [List.cons_append, List.append_assoc, List.nil_append]
  rw [pAtom, h m (by omega) _ rfl]
  simp only [post]
  rw [h' m (by omega) _ rfl]
  rfl

theorem At.var (v : Nat) : At (.var v) [.stars v] := by
  refine ⟨1, fun n hn r => ?_⟩
  obtain ⟨m, rfl, hm⟩ := succ_of_le hn
  rfl

theorem At.word (w : String) : At (nameTy w) [.word w] := by
  refine ⟨1, fun n hn r => ?_⟩
  obtain ⟨m, rfl, hm⟩ := succ_of_le hn
  rfl

theorem Ar.nil : Ar .nil [] := by
  refine ⟨1, fun n hn x r => ?_⟩
  obtain ⟨m, rfl, hm⟩ := succ_of_le hn
  rfl

/-- How the rest of an argument list begins. -/
inductive Begins : List Tok → Prop where
  | comma (r) : Begins (.comma :: r)
  | rcurl (r) : Begins (.rcurl :: r)

theorem Begins.ok {r} (h : Begins r) : okRest r = true := by cases h <;> rfl
theorem Begins.post {r} (h : Begins r) (t : Ty) : post t r = (t, r) := by cases h <;> rfl

theorem Ar.cons {a as l l'} (h : Fu a l) (h' : Ar as l') (hb : ∀ r, Begins (l' ++ .rcurl :: r)) :
    Ar (.cons a as) (.comma :: l ++ l') := by
  obtain ⟨N, h⟩ := h
  obtain ⟨N', h'⟩ := h'
  refine ⟨max N N' + 1, fun n hn x r => ?_⟩
  obtain ⟨m, rfl, hm⟩ := succ_of_le hn
  simp only [List.cons_append, List.append_assoc]
  have b := hb (.word x :: r)
  rw [pArgs, h m (by omega) _ b.ok, b.post]
  simp only
  rw [h' m (by omega)]

theorem At.args {a as l l'} (x : String) (h : Fu a l) (h' : Ar as l') (hb : ∀ r, Begins (l' ++ .rcurl :: r)) :
    At (.con (.concrete x) (.cons a as)) (.lcurl :: l ++ l' ++ [.rcurl, .word x]) := by
  obtain ⟨N, h⟩ := h
  obtain ⟨N', h'⟩ := h'
  refine ⟨max N N' + 1, fun n hn r => ?_⟩
  obtain ⟨m, rfl, hm⟩ := succ_of_le hn
  simp only [List.cons_append, List.append_assoc, List.nil_append]
  have b := hb (.word x :: r)
  have e := h' m (by omega) x r
  rw [pAtom, h m (by omega) _ b.ok, b.post]
  generalize l' ++ .rcurl :: .word x :: r = q at e b
  cases b with
  | comma => simp only; rw [e]
  | rcurl => simp only; rw [e]

theorem prRest_begins (p : Nat) : ∀ (ts : Tys) r, Begins (prRest p ts ++ .rcurl :: r)
  | .nil, _ => by simp only [prRest, List.nil_append]; exact .rcurl _
  | .cons _ _, _ => by simp only [prRest, List.cons_append]; exact .comma _

structure Reads (p : Nat) (t : Ty) : Prop where
  fu : Fu t (pr p t)
  ch : 2 ≤ p → Ch t (pr p t)
  atom : 2 ≤ p → t.chain = false → At t (pr p t)
  atom3 : 3 ≤ p → At t (pr p t)

theorem Reads.of_at {p t} (h : At t (pr p t)) : Reads p t := ⟨h.ch.fu, fun _ => h.ch, fun _ _ => h, fun _ => h⟩

set_option maxHeartbeats 1000000 in
mutual
theorem reads {ar : String → Nat} : ∀ (t : Ty) (p : Nat), t.WF ar → t.Legible → Reads p t
  | .var v, p, _, _ => .of_at (by rw [pr]; exact .var v)
  | .con o ts, p, w, g => by
    obtain ⟨wl, wt⟩ := w
    obtain ⟨g1, g2, g3⟩ := g
    cases o with
    | concrete x =>
      match ts with
      | .nil =>
        apply Reads.of_at
        rw [pr]
        have := At.word x
        rwa [nameTy, g2 x rfl] at this
      | .cons a as =>
        apply Reads.of_at
        rw [pr]
        exact .args x (reads a p wt.1 g3.1).fu (readsAll as p wt.2 g3.2) (prRest_begins p as)
    | arrow =>
      match ts, wl with
      | .cons a (.cons b .nil), _ =>
        have k : Ch _ (pr 3 a ++ .arrow :: pr 2 b) :=
          .arrow ((reads a 3 wt.1 g3.1).atom3 (by omega)) ((reads b 2 wt.2.1 g3.2.1).ch (by omega))
        by_cases hp : p > 2
        · apply Reads.of_at
          rw [pr, paren, if_pos (by simpa using hp)]
          exact k.fu.at
        · have e : pr p (.con .arrow (.cons a (.cons b .nil))) = pr 3 a ++ .arrow :: pr 2 b := by
            rw [pr, paren, if_neg (by simpa using hp)]
          exact ⟨by rw [e]; exact k.fu, (fun _ => by rw [e]; exact k), (fun _ h => by cases h), (fun h => absurd h (by omega))⟩
    | tuple =>
      match ts, wl with
      | .cons a (.cons b .nil), _ =>
        have k : Ch _ (pr 2 a ++ .hash :: pr 2 b) :=
          .tuple ((reads a 2 wt.1 g3.1).atom (by omega) (g1 rfl)) ((reads b 2 wt.2.1 g3.2.1).ch (by omega))
        by_cases hp : p > 2
        · apply Reads.of_at
          rw [pr, paren, if_pos (by simpa using hp)]
          exact k.fu.at
        · have e : pr p (.con .tuple (.cons a (.cons b .nil))) = pr 2 a ++ .hash :: pr 2 b := by
            rw [pr, paren, if_neg (by simpa using hp)]
          exact ⟨by rw [e]; exact k.fu, (fun _ => by rw [e]; exact k), (fun _ h => by cases h), (fun h => absurd h (by omega))⟩
    | tbl =>
      match ts, wl with
      | .cons a (.cons b .nil), _ =>
        have k := At.tbl (reads a 1 wt.1 g3.1).fu (reads b 1 wt.2.1 g3.2.1).fu
        apply Reads.of_at
        rw [pr, paren]
        split
        · exact k.ch.fu.at
        · exact k
    | list =>
      match ts, wl with
      | .cons a .nil, _ =>
        have k := Fu.list (reads a 9 wt.1 g3.1).fu
        by_cases hp : p > 0
        · apply Reads.of_at
          rw [pr, paren, if_pos (by simpa using hp)]
          exact k.at
        · have e : pr p (.con .list (.cons a .nil)) = pr 9 a ++ [.list] := by
            rw [pr, paren, if_neg (by simpa using hp)]
          exact ⟨by rw [e]; exact k, (fun h => absurd h (by omega)), (fun h => absurd h (by omega)), (fun h => absurd h (by omega))⟩
    | ref =>
      match ts, wl with
      | .cons a .nil, _ =>
        have k := Fu.ref (reads a 1 wt.1 g3.1).fu
        by_cases hp : p > 1
        · apply Reads.of_at
          rw [pr, paren, if_pos (by simpa using hp)]
          exact k.at
        · have e : pr p (.con .ref (.cons a .nil)) = pr 1 a ++ [.ref] := by
            rw [pr, paren, if_neg (by simpa using hp)]
          exact ⟨by rw [e]; exact k, (fun h => absurd h (by omega)), (fun h => absurd h (by omega)), (fun h => absurd h (by omega))⟩
    | bool => match ts, wl with | .nil, _ => exact .of_at (by rw [pr]; exact .word "bool"; all_goals simp)
    | bexpr => match ts, wl with | .nil, _ => exact .of_at (by rw [pr]; exact .word "bexpr"; all_goals simp)
    | int => match ts, wl with | .nil, _ => exact .of_at (by rw [pr]; exact .word "int"; all_goals simp)
    | fsm => match ts, wl with | .nil, _ => exact .of_at (by rw [pr]; exact .word "obsolete_fsm"; all_goals simp)
    | string => match ts, wl with | .nil, _ => exact .of_at (by rw [pr]; exact .word "string"; all_goals simp)
    | void => match ts, wl with | .nil, _ => exact .of_at (by rw [pr]; exact .word "void"; all_goals simp)
    | fp => match ts, wl with | .nil, _ => exact .of_at (by rw [pr]; exact .word "stream"; all_goals simp)
theorem readsAll {ar : String → Nat} : ∀ (ts : Tys) (p : Nat), ts.WF ar → ts.Legible → Ar ts (prRest p ts)
  | .nil, p, _, _ => by rw [prRest]; exact .nil
  | .cons t ts, p, w, g => by
    rw [prRest]
    exact .cons (reads t p w.1 g.1).fu (readsAll ts p w.2 g.2) (prRest_begins p ts)
end

theorem pr_inj {ar ar' : String → Nat} {t t' : Ty} (w : t.WF ar) (w' : t'.WF ar') (g : t.Legible) (g' : t'.Legible)
    (h : pr 0 t = pr 0 t') : t = t' := by
  obtain ⟨N, k⟩ := (reads t 0 w g).fu
  obtain ⟨N', k'⟩ := (reads t' 0 w' g').fu
  have e := k (max N N') (by omega) [] rfl
  rw [h, k' (max N N') (by omega) [] rfl] at e
  simp only [post, Option.some.injEq, Prod.mk.injEq, and_true] at e
  exact e.symm

theorem length_sub (ρ : Nat → Ty) : ∀ ts : Tys, (ts.sub ρ).length = ts.length
  | .nil => rfl
  | .cons _ ts => by simp only [Tys.sub, Tys.length, length_sub ρ ts]

mutual
theorem wf_rename {ar : String → Nat} (r : Nat → Nat) : ∀ t : Ty, t.WF ar → (t.sub fun v => .var (r v)).WF ar
  | .var _, _ => trivial
  | .con _ ts, w => ⟨by rw [length_sub]; exact w.1, wf_renames r ts w.2⟩
theorem wf_renames {ar : String → Nat} (r : Nat → Nat) : ∀ ts : Tys, ts.WF ar → (ts.sub fun v => .var (r v)).WF ar
  | .nil, _ => trivial
  | .cons t ts, w => ⟨wf_rename r t w.1, wf_renames r ts w.2⟩
end

theorem chain_rename (r : Nat → Nat) (t : Ty) : (t.sub fun v => .var (r v)).chain = t.chain := by
  cases t with
  | var => rfl
  | con o ts => cases o <;> simp [Ty.sub, Ty.chain]

mutual
theorem legible_rename (r : Nat → Nat) : ∀ t : Ty, t.Legible → (t.sub fun v => .var (r v)).Legible
  | .var _, _ => trivial
  | .con _ ts, w => by
    refine ⟨fun e => ?_, w.2.1, legibles_rename r ts w.2.2⟩
    have := w.1 e
    cases ts with
    | nil => rfl
    | cons t ts => simpa [Tys.sub, Tys.headChain, chain_rename] using this
theorem legibles_rename (r : Nat → Nat) : ∀ ts : Tys, ts.Legible → (ts.sub fun v => .var (r v)).Legible
  | .nil, _ => trivial
  | .cons t ts, w => ⟨legible_rename r t w.1, legibles_rename r ts w.2⟩
end

end Voss.TC
