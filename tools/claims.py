"""Generates MANIFEST.json.  Run: python3 tools/claims.py"""
import json, os
C = []
def c(p, status, thms, note):
    C.append({"property": p, "status": status, "theorems": ["LC." + t for t in thms.split()], "note": note})

c("C01", "proved", "C01_generator_order C01_generator_order_layout C01_tuple_order", "")
c("C02", "proved", "C02_monomial_order C02_monomial_order_predefined C02_shorter_first", "")
c("C03", "proved", "C03_dyn_indices_order C03_dyn_indices_layout C03_generators_with_dyn_indices", "")
c("C04", "proved", "C04_normalisation_sound C04_arithmetic_sound", "any generator family satisfying the documented contract, any associative algebra")
c("C05", "partial", "C05_stored_monomials_canonical_partial C05_constructor_partial C05_canonical_fixed_partial C05_F2_counterexample",
  "missing case: a spin-1/2 and a higher spin at the same index; there the claim is false in the code (F2), proved by C05_F2_counterexample")
c("C06", "proved", "C06_predefined_algebras C06_normalisation_sound_predefined C06_textbook_satisfiable C06_F2_mixed_multiplicities_do_not_commute", "")
c("C07", "proved", "C07_canonical_map C07_constructor", "scalars: integral domains of characteristic 0")
c("C08", "proved", "C08_add_comm_assoc C08_zero_neg_sub C08_coefficients C08_eq_iff_coefficients", "")
c("C09", "proved", "C09_module", "")
c("C10", "proved", "C10_bilinear", "")
c("C11", "proved", "C11_mul_assoc C11_unit C11_mul_assoc_low_powers C11_F15_spin_one_not_associative", "fermions, bosons, spins-1/2, as the property states; for spins S>=1 proved when no ladder power can reach the multiplicity, otherwise shown to fail (F15)")
c("C12", "proved", "C12_eq_iff_same_operator C12_zero_iff", "")
c("C13", "proved", "C13_car", "")
c("C14", "proved", "C14_ccr", "")
c("C15", "proved", "C15_spin_commutators C15_spin_half_products C15_spin_sites_commute", "")
c("C16", "partial", "C16_commute_partial C16_expressions_commute C16_expressions_commute_all_spins C06_F2_mixed_multiplicities_do_not_commute",
  "missing case: spin-1/2 against another multiplicity at the same index; there the claim is false in the code (F2)")
c("C17", "proved", "C17_conj_all_spins C17_hc_all_spins C17_conj C17_hc", "All spins; where a spin 1/2 shares its indices with another spin (finding F2) excluded by HalfAlone.")
c("C18", "partial", "C18_ladder_powers C18_ladder_zero_iff C18_fermion_squares C18_in_any_product_partial C18_F15_spin_one_product_survives",
  "'in any product' holds for fermions and spins-1/2; it is false in the code for spins S>=1 (F15), proved by C18_F15_spin_one_product_survives")
c("C19", "proved", "C19_mixed_agree", "")
c("C20", "proved", "C20_scalars", "")
c("C21", "proved", "C21_transform", "")
c("C22", "partial", "C22_add_assign_self_partial C22_mul_assign_self_partial C22_F10_sub_assign_self C22_F17_scale_by_own_coefficient C22_F17_scaled_coefficients",
  "e += e and e *= e proved; e -= e is undefined behaviour for every non-zero e (F10), also proved")
exec(open(os.path.join(os.path.dirname(__file__), "claims_more.py")).read()) if os.path.exists(os.path.join(os.path.dirname(__file__), "claims_more.py")) else None
open(os.path.join(os.path.dirname(__file__), "..", "MANIFEST.json"), "w").write(json.dumps({"claims": C}, indent=1) + "\n")
