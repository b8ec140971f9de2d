import Verif.Type.DeclUndef
/-
Lemmas about taking values apart.
-/
namespace Voss.TC

mutual
theorem sub_agree {ρ ρ' : Nat → Ty} : ∀ t : Ty, t.sub ρ = t.sub ρ' → ∀ v ∈ t.vars, ρ v = ρ' v
  | .var v, h, w, hw => by
    rw [Ty.vars.eq_def] at hw
    rw [List.mem_singleton.1 hw]
    exact h
  | .con _ ts, h, w, hw => subs_agree ts (Ty.con.inj h).2 w (by rw [Ty.vars.eq_def] at hw; exact hw)
theorem subs_agree {ρ ρ' : Nat → Ty} : ∀ ts : Tys, ts.sub ρ = ts.sub ρ' → ∀ v ∈ ts.vars, ρ v = ρ' v
  | .nil, _, w, hw => by rw [Tys.vars.eq_def] at hw; cases hw
  | .cons t ts, h, w, hw => by
    rw [Tys.vars.eq_def] at hw
    have hh := Tys.cons.inj h
    rcases List.mem_append.1 hw with hw | hw
    · exact sub_agree t hh.1 w hw
    · exact subs_agree ts hh.2 w hw
end

mutual
theorem sub_congr {ρ ρ' : Nat → Ty} : ∀ t : Ty, (∀ v ∈ t.vars, ρ v = ρ' v) → t.sub ρ = t.sub ρ'
  | .var v, h => h v (by simp [Ty.vars])
  | .con _ ts, h => by
    simp only [Ty.sub]
    rw [subs_congr ts fun v hv => h v (by rw [Ty.vars.eq_def]; exact hv)]
theorem subs_congr {ρ ρ' : Nat → Ty} : ∀ ts : Tys, (∀ v ∈ ts.vars, ρ v = ρ' v) → ts.sub ρ = ts.sub ρ'
  | .nil, _ => rfl
  | .cons t ts, h => by
    simp only [Tys.sub]
    rw [sub_congr t fun v hv => h v (by rw [Tys.vars.eq_def]; exact List.mem_append_left _ hv),
      subs_congr ts fun v hv => h v (by rw [Tys.vars.eq_def]; exact List.mem_append_right _ hv)]
end

theorem proper_after : ∀ (as : Tys) (cur : Ty), properArgs cur as = as.after cur
  | .nil, _ => by rw [properArgs, Tys.after]
  | .cons _ as, _ => by rw [properArgs, Tys.after, proper_after as]

theorem sub_proper (ρ : Nat → Ty) : ∀ (as : Tys) (cur : Ty), (properArgs cur as).sub ρ = properArgs (cur.sub ρ) (as.sub ρ)
  | .nil, _ => rfl
  | .cons a as, cur => by simp only [properArgs, Tys.sub, sub_proper ρ as, Ty.sub]


def arrowsTy : Tys → Ty → Ty
  | .nil, t => t
  | .cons a as, t => .arrow a (arrowsTy as t)

theorem erase_arrowsTo (r : DTy) : ∀ as : DTys, (arrowsTo as r).erase = arrowsTy as.erase r.erase
  | .nil => rfl
  | .cons a as => by simp only [arrowsTo, DTy.erase, DTys.erase, arrowsTy, erase_arrowsTo r as]

theorem sub_arrowsTy (ρ : Nat → Ty) (t : Ty) : ∀ as : Tys, (arrowsTy as t).sub ρ = arrowsTy (as.sub ρ) (t.sub ρ)
  | .nil => rfl
  | .cons a as => by simp only [arrowsTy, Ty.sub, Tys.sub, sub_arrowsTy ρ t as]

theorem sub_length (ρ : Nat → Ty) : ∀ as : Tys, (as.sub ρ).length = as.length
  | .nil => rfl
  | .cons _ as => by simp only [Tys.sub, Tys.length, sub_length ρ as]

theorem arrowsTy_inj {s t : Ty} : ∀ as bs : Tys, as.length = bs.length → arrowsTy as s = arrowsTy bs t → as = bs ∧ s = t
  | .nil, .nil, _, h => ⟨rfl, h⟩
  | .nil, .cons _ _, h, _ => by simp [Tys.length] at h
  | .cons _ _, .nil, h, _ => by simp [Tys.length] at h
  | .cons a as, .cons b bs, hl, h => by
    simp only [arrowsTy, Ty.con.injEq, Tys.cons.injEq, true_and, and_true] at h
    obtain ⟨rfl, h⟩ := h
    obtain ⟨rfl, e⟩ := arrowsTy_inj as bs (by simpa [Tys.length] using hl) h
    exact ⟨rfl, e⟩

theorem apps_inv {η Γ σ} : ∀ (es : List Tm) (f : Tm), HasType η Γ (apps f es) σ →
    ∃ τs, τs.length = es.length ∧ HasTypes η Γ es τs ∧ HasType η Γ f (arrowsTy τs σ)
  | [], f, h => ⟨.nil, rfl, trivial, h⟩
  | e :: es, f, h => by
    obtain ⟨τs, hl, h1, h2⟩ := apps_inv es (.app f e) h
    cases h2 with
    | app hf ha => exact ⟨.cons _ τs, by simp [Tys.length, hl], ⟨ha, h1⟩, hf⟩

theorem take_apart (c : Ctor) (b : Nat) (hv : ∀ v ∈ c.args.erase.vars, v ∈ c.res.erase.vars)
    {η : Nat → Ty} {Γ : List (String × Ty)} {k : Tm} {es : List Tm} (hl : es.length = c.args.length) {β : Ty}
    (h : HasType η Γ (.app (.app (.const (destructorType c.args.erase c.res.erase b)) k)
      (apps (.const (arrowsTo c.args c.res).erase) es)) β) :
    ∃ τs, HasTypes η Γ es τs ∧ HasType η Γ k (.arrow (properArgs (.base .string) τs) β) := by
  cases h with
  | app hd he =>
    obtain ⟨τs, hlen, hes, hc⟩ := apps_inv es _ he
    cases hd with
    | app hd hk =>
      cases hd with
      | const hd =>
        cases hc with
        | const hc =>
          obtain ⟨ρ, hρ⟩ := hc
          obtain ⟨ρ', hρ'⟩ := hd
          rw [erase_arrowsTo, sub_arrowsTy] at hρ
          obtain ⟨rfl, rfl⟩ := arrowsTy_inj _ _ (by rw [hlen, sub_length, DTys.erase_length, hl]) hρ
          simp only [destructorType, Ty.sub, Tys.sub, sub_proper, Ty.con.injEq, Tys.cons.injEq, true_and,
            and_true] at hρ'
          obtain ⟨rfl, h1, rfl⟩ := hρ'
          have : c.args.erase.sub ρ = c.args.erase.sub ρ' :=
            subs_congr _ fun v hvm => sub_agree _ h1 v (hv v hvm)
          refine ⟨_, hes, ?_⟩
          rw [this]
          exact hk

end Voss.TC
