import Verif.Lemmas.Coo
import Verif.Spec.Matrix
import Verif.Spec.Coo

namespace Nikfemm
variable {α : Type}

theorem CooWF.new (m : Nat) : CooWF (Coo.new m : Coo α) :=
  ⟨by simp [Coo.new], by simp [Coo.new]⟩

theorem CooWF.perm {A : Coo α} (h : CooWF A) {l : List (Nat × α)} (hp : A.elems.Perm l) :
    CooWF { A with elems := l } :=
  ⟨((hp.map Prod.fst).nodup_iff).mp h.nodup,
   fun k hk => h.keys k (((hp.map Prod.fst).mem_iff).mpr hk)⟩

variable [Zero α]

theorem CooWF.modify {A A' : Coo α} (h : CooWF A) {i j : Nat} {f : α → α}
    (e : A.modify i j f = .ok A') : CooWF A' := by
  by_cases hij : i % 2 ^ 32 ≤ j % 2 ^ 32
  · obtain ⟨A1, e1, _, _, hk⟩ := Coo.modify_ok (A := A) f hij
    rw [e] at e1
    cases e1
    rcases hk with ⟨hk, _⟩ | ⟨hk, hn⟩
    · exact ⟨hk ▸ h.nodup, hk ▸ h.keys⟩
    · refine ⟨?_, ?_⟩
      · rw [hk]
        exact h.nodup.append (by simp) (by simpa using hn)
      · rw [hk]
        intro k hk'
        rcases List.mem_append.mp hk' with h1 | h1
        · exact h.keys k h1
        · rw [List.mem_singleton.mp h1]
          refine ⟨packKey_lt _ _, ?_⟩
          rw [← packKey_mod, keyRow_packKey (by omega) (by omega),
            keyCol_packKey (by omega) (by omega)]
          exact hij
  · unfold Coo.modify at e
    rw [Coo.touch_error (by omega)] at e
    cases e

end Nikfemm
