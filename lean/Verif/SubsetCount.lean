import Mathlib.Data.Finset.Powerset
import Mathlib.Data.Finset.Card
import Mathlib.Data.List.Nodup
import Verif.NdfaLemmas
/- Counting: there are at most `2 ^ n` sets of states. -/
namespace TameParse

theorem subset_count (L : List (List Nat)) (n : Nat) (hn : L.Nodup) (hs : ∀ l ∈ L, SetOk l)
    (hb : ∀ l ∈ L, ∀ x ∈ l, x < n) : L.length ≤ 2 ^ n := by
  have h1 : (L.map List.toFinset).Nodup := by
    refine hn.map_on ?_
    intro a ha b hb' hab
    refine setOk_ext (hs a ha) (hs b hb') (fun x => ?_)
    rw [← List.mem_toFinset, hab, List.mem_toFinset]
  have h2 : (L.map List.toFinset).toFinset ⊆ (Finset.range n).powerset := by
    intro f hf
    rw [List.mem_toFinset, List.mem_map] at hf
    obtain ⟨l, hl, rfl⟩ := hf
    rw [Finset.mem_powerset]
    intro x hx
    rw [List.mem_toFinset] at hx
    exact Finset.mem_range.2 (hb l hl x hx)
  have h3 := Finset.card_le_card h2
  rw [List.toFinset_card_of_nodup h1, Finset.card_powerset, Finset.card_range, List.length_map] at h3
  exact h3

end TameParse
