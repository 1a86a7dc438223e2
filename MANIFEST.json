{
 "claims": [
  {
   "property": "C01",
   "status": "partial",
   "theorems": [
    "LatexAst.Ast1.C01_partial",
    "LatexAst.Ast1.C01_length_partial",
    "LatexAst.Ast1.C01_false",
    "LatexAst.Ast1.C01_exact_partial",
    "LatexAst.Ast1.C01_same_partial",
    "LatexAst.Ast1.C01_verbatim_example"
   ],
   "note": "The full property is false of the code (C01_false). Proved: up to bracket kinds the print is a subsequence of the source without comments, never longer; and exactly which sources are printed back (C01_exact_partial: those that are Verbatim without their comments, a syntactic condition)."
  },
  {
   "property": "C02",
   "status": "partial",
   "theorems": [
    "LatexAst.Ast1.C02_partial",
    "LatexAst.Ast1.C02_placement_partial",
    "LatexAst.Ast1.C02_exact_partial",
    "LatexAst.Ast1.C02_false"
   ],
   "note": "False for comments containing a backslash (C02_false); proved for all sources whose comments have none, and exactly what comments do in general."
  },
  {
   "property": "C03",
   "status": "proved",
   "theorems": [
    "LatexAst.Ast1.C03",
    "LatexAst.Ast1.C03_injective",
    "LatexAst.Ast1.C03_covers_parsed",
    "LatexAst.Ast1.C03_exact"
   ],
   "note": "C03_exact: the canonical documents are exactly those that are read back from their printed form."
  },
  {
   "property": "C04",
   "status": "proved",
   "theorems": [
    "LatexAst.Ast1.C04"
   ],
   "note": ""
  },
  {
   "property": "C05",
   "status": "proved",
   "theorems": [
    "LatexAst.Ast1.C05"
   ],
   "note": ""
  },
  {
   "property": "C06",
   "status": "partial",
   "theorems": [
    "LatexAst.Ast1.C06_partial",
    "LatexAst.Ast1.C06_false"
   ],
   "note": "False of the code in two characterised cases (C06_false); the theorem gives the exact number in every case."
  },
  {
   "property": "C07",
   "status": "proved",
   "theorems": [
    "LatexAst.Ast1.C07"
   ],
   "note": ""
  },
  {
   "property": "C08",
   "status": "proved",
   "theorems": [
    "LatexAst.Ast1.C08"
   ],
   "note": ""
  },
  {
   "property": "C09",
   "status": "proved",
   "theorems": [
    "LatexAst.Ast1.C09"
   ],
   "note": ""
  },
  {
   "property": "C10",
   "status": "partial",
   "theorems": [
    "LatexAst.Ast1.C10_argument",
    "LatexAst.Ast1.C10_scope_partial",
    "LatexAst.Ast1.C10_false"
   ],
   "note": "Proved for arguments; free scopes are always recorded as curly, so the property fails for round and square free scopes (C10_false)."
  },
  {
   "property": "C11",
   "status": "partial",
   "theorems": [
    "LatexAst.Ast1.C11_partial",
    "LatexAst.Ast1.C11_false"
   ],
   "note": "False of the code (C11_false); the theorem says exactly which parsed documents validate."
  },
  {
   "property": "C12",
   "status": "proved",
   "theorems": [
    "LatexAst.Ast1.C12",
    "LatexAst.Ast1.C12_reject"
   ],
   "note": ""
  },
  {
   "property": "C13",
   "status": "proved",
   "theorems": [
    "LatexAst.Ast1.C13"
   ],
   "note": ""
  },
  {
   "property": "C14",
   "status": "partial",
   "theorems": [
    "LatexAst.Ast1.C14_partial",
    "LatexAst.Ast1.C14_false",
    "LatexAst.Ast1.C14_exact_partial",
    "LatexAst.Ast1.C14_text_partial",
    "LatexAst.Ast1.C14_text_only"
   ],
   "note": "False of the code (C14_false); proved exactly when it holds: with equality of documents iff no free scope lies inside a curly argument and no } in a text inside a free scope (C14_exact_partial), with equality of texts iff the printed form is Verbatim (C14_text_partial)."
  },
  {
   "property": "C15",
   "status": "proved",
   "theorems": [
    "LatexAst.Ast1.C15_push",
    "LatexAst.Ast1.C15_pushChunk",
    "LatexAst.Ast1.C15_structure",
    "LatexAst.Ast2.C15_push",
    "LatexAst.Ast2.C15_pushChunk",
    "LatexAst.Ast2.C15_structure",
    "LatexAst.Ast3.C15_push",
    "LatexAst.Ast3.C15_pushChunk"
   ],
   "note": ""
  },
  {
   "property": "C16",
   "status": "proved",
   "theorems": [
    "LatexAst.Ast1.C16",
    "LatexAst.Ast2.C16"
   ],
   "note": ""
  },
  {
   "property": "C17",
   "status": "proved",
   "theorems": [
    "LatexAst.Ast1.C17_decision",
    "LatexAst.Ast1.C17_valid",
    "LatexAst.Ast2.C17_decision",
    "LatexAst.Ast2.C17_valid"
   ],
   "note": ""
  },
  {
   "property": "C18",
   "status": "proved",
   "theorems": [
    "LatexAst.Ast1.C18",
    "LatexAst.Ast1.C18_new",
    "LatexAst.Ast1.C18_constructors",
    "LatexAst.Ast2.C18",
    "LatexAst.Ast2.C18_new",
    "LatexAst.Ast2.C18_constructors",
    "LatexAst.Ast2.C18_environment",
    "LatexAst.Ast3.C18",
    "LatexAst.Ast3.C18_new",
    "LatexAst.Ast3.C18_constructors"
   ],
   "note": "Also for stages 2 and 3."
  },
  {
   "property": "C19",
   "status": "partial",
   "theorems": [
    "LatexAst.Ast1.C19_partial",
    "LatexAst.Ast1.C19_false",
    "LatexAst.Ast1.C19_exact_partial"
   ],
   "note": "False of the code (C19_false); proved for every document that prints unambiguously, whatever its line numbers, and exactly when it holds: iff the printed form is Verbatim (C19_exact_partial)."
  },
  {
   "property": "C20",
   "status": "partial",
   "theorems": [
    "LatexAst.Ast1.C20_nodes",
    "LatexAst.Ast1.C20_document",
    "LatexAst.Ast2.C20_nodes",
    "LatexAst.Ast2.C20_document",
    "LatexAst.Ast2.C20_environment",
    "LatexAst.Ast3.C20_nodes",
    "LatexAst.Ast3.C20_document_exact_partial",
    "LatexAst.Ast3.C20_document_iff_partial",
    "LatexAst.Ast3.C20_document_partial",
    "LatexAst.Ast3.C20_document_false"
   ],
   "note": "Proved for all nodes and for ast1/ast2 documents; false for ast3 documents (C20_document_false), whose exact deviation is given."
  },
  {
   "property": "C21",
   "status": "proved",
   "theorems": [
    "LatexAst.Ast2.C21",
    "LatexAst.Ast2.C21_source"
   ],
   "note": ""
  },
  {
   "property": "C22",
   "status": "proved",
   "theorems": [
    "LatexAst.Ast2.C22"
   ],
   "note": ""
  },
  {
   "property": "C23",
   "status": "proved",
   "theorems": [
    "LatexAst.Ast2.C23",
    "LatexAst.Ast2.C23_matched",
    "LatexAst.Ast2.C23_source",
    "LatexAst.Ast2.C23_nesting"
   ],
   "note": ""
  },
  {
   "property": "C24",
   "status": "proved",
   "theorems": [
    "LatexAst.Ast2.C24",
    "LatexAst.Ast2.C24_types"
   ],
   "note": ""
  },
  {
   "property": "C25",
   "status": "partial",
   "theorems": [
    "LatexAst.Ast2.C25_partial",
    "LatexAst.Ast2.C25_top_partial",
    "LatexAst.Ast2.C25_exact_partial",
    "LatexAst.Ast2.C25_place",
    "LatexAst.Ast2.C25_correct_iff_partial",
    "LatexAst.Ast2.C25_unique_partial",
    "LatexAst.Ast2.C25_false"
   ],
   "note": "False of the code (C25_false). Proved exactly: which problem is reported and on which line, as an if-and-only-if with the declarative Fault: the line of the problem, plus one for every scope and environment around it, minus the line breaks before the arguments around it; hence exactly when the line is right (C25_correct_iff_partial). Also bounds, and exactness at the top level."
  },
  {
   "property": "C26",
   "status": "partial",
   "theorems": [
    "LatexAst.Ast2.C26_partial",
    "LatexAst.Ast2.C26_displaced_partial",
    "LatexAst.Ast2.C26_exact_partial",
    "LatexAst.Ast2.C26_false"
   ],
   "note": "False of the code when a \\begin spans lines (C26_false); proved for all other parsed documents. For every parsed document the conversion returns, and what moves is exactly the \\begin and \\end commands, by the newlines in the arguments (C26_displaced_partial); the document is the same if and only if no \\begin outside the labels has a newline in or before its arguments (C26_exact_partial)."
  },
  {
   "property": "C27",
   "status": "partial",
   "theorems": [
    "LatexAst.Ast2.C27_partial",
    "LatexAst.Ast2.C27_plain_partial",
    "LatexAst.Ast2.C27_parsed",
    "LatexAst.Ast2.C27_exact_partial",
    "LatexAst.Ast2.C27_length_partial",
    "LatexAst.Ast2.C27_false"
   ],
   "note": "False of the code for environment labels that do not read as themselves and for environments on line 0 (C27_false); proved otherwise, and in full for parsed documents (C27_parsed). When the conversion returns, the text is kept if and only if every label reads as itself (C27_exact_partial)."
  },
  {
   "property": "C28",
   "status": "proved",
   "theorems": [
    "LatexAst.Ast2.C28",
    "LatexAst.Ast2.C28_tryFrom",
    "LatexAst.Ast2.C28_backwards"
   ],
   "note": ""
  },
  {
   "property": "C29",
   "status": "proved",
   "theorems": [
    "LatexAst.Ast2.C29",
    "LatexAst.Ast2.C29_source"
   ],
   "note": ""
  },
  {
   "property": "C30",
   "status": "partial",
   "theorems": [
    "LatexAst.Ast2.C30_partial",
    "LatexAst.Ast2.C30_one_line_partial",
    "LatexAst.Ast2.C30_false"
   ],
   "note": "False of the code when the \\begin spans lines (C30_false); the exact number is proved in every case."
  },
  {
   "property": "C31",
   "status": "proved",
   "theorems": [
    "LatexAst.Ast3.C31",
    "LatexAst.Ast3.C31_chunks"
   ],
   "note": ""
  },
  {
   "property": "C32",
   "status": "proved",
   "theorems": [
    "LatexAst.Ast3.C32",
    "LatexAst.Ast3.C32_cut",
    "LatexAst.Ast3.C32_unique",
    "LatexAst.Ast3.C32_validate"
   ],
   "note": ""
  },
  {
   "property": "C33",
   "status": "proved",
   "theorems": [
    "LatexAst.Ast3.C33",
    "LatexAst.Ast3.C33_split"
   ],
   "note": ""
  },
  {
   "property": "C34",
   "status": "partial",
   "theorems": [
    "LatexAst.Ast3.C34_partial",
    "LatexAst.Ast3.C34_false"
   ],
   "note": "False of the code for breaks with three newlines or more (C34_false); the exact number is proved in every case."
  },
  {
   "property": "C35",
   "status": "partial",
   "theorems": [
    "LatexAst.Ast3.C35_maths_exact_partial",
    "LatexAst.Ast3.C35_exact_partial",
    "LatexAst.Ast3.C35_verbatim_partial",
    "LatexAst.Ast3.C35_verbatim_example",
    "LatexAst.Ast3.C35_source_partial",
    "LatexAst.Ast3.C35_no_body_exact",
    "LatexAst.Ast3.C35_length_partial",
    "LatexAst.Ast3.C35_partial",
    "LatexAst.Ast3.C35_brackets_partial",
    "LatexAst.Ast3.C35_count_partial",
    "LatexAst.Ast3.C35_no_body",
    "LatexAst.Ast3.C35_false"
   ],
   "note": "False of the code for commands inside dollar maths, nested brackets of one kind, and different blanks after \\begin and \\end (C35_false). Proved exactly: the text is kept if and only if the declarative KeepsText holds of every part (C35_exact_partial, for equal blanks after begin and end). Also: exact printing when the maths is well formed in the strict sense, for dollar-free parsed documents without self-nested brackets, and for every parsed document that no character other than backslashes and brackets is lost or invented."
  },
  {
   "property": "C36",
   "status": "proved",
   "theorems": [
    "LatexAst.Ast3.C36",
    "LatexAst.Ast3.C36_context",
    "LatexAst.Ast3.C36_source",
    "LatexAst.Ast3.C36_odd",
    "LatexAst.Ast3.C36_odd_source",
    "LatexAst.Ast3.C36_odd_chunks",
    "LatexAst.Ast3.C36_total"
   ],
   "note": ""
  },
  {
   "property": "C37",
   "status": "partial",
   "theorems": [
    "LatexAst.Ast3.C37_partial",
    "LatexAst.Ast3.C37_block_partial",
    "LatexAst.Ast3.C37_false"
   ],
   "note": "Acceptance, rejection and the resulting block are characterised exactly; the clause that everything between the delimiters is content is false for nested delimiters of the same kind (C37_false)."
  },
  {
   "property": "C38",
   "status": "proved",
   "theorems": [
    "LatexAst.Ast3.C38",
    "LatexAst.Ast3.C38_double",
    "LatexAst.Ast3.C38_too_many",
    "LatexAst.Ast3.C38_errors"
   ],
   "note": ""
  },
  {
   "property": "C39",
   "status": "partial",
   "theorems": [
    "LatexAst.Ast3.C39_split",
    "LatexAst.Ast3.C39_partial",
    "LatexAst.Ast3.C39_false"
   ],
   "note": "False of the code: the first character of every option and every value are lost (C39_false). Proved: the splitting at commas, and exactly how each option is read."
  },
  {
   "property": "C40",
   "status": "proved",
   "theorems": [
    "LatexAst.Ast3.C40",
    "LatexAst.Ast3.C40_chunk",
    "LatexAst.Ast3.C40_panics"
   ],
   "note": "Converting stage-3 chunks back to stage 2 preserves the text exactly when no maths block is on line 0; otherwise it panics."
  },
  {
   "property": "C41",
   "status": "partial",
   "theorems": [
    "LatexAst.Ast3.C41_partial",
    "LatexAst.Ast3.C41_returns_partial",
    "LatexAst.Ast3.C41_parsed_partial",
    "LatexAst.Ast3.C41_exact_partial",
    "LatexAst.Ast3.C41_false"
   ],
   "note": "Exact condition for returning proved; the full claim is false of the code (counterexamples in C41_false): one-line documents panic, line-0 maths blocks panic, the \\end prefix is printed wrongly by the stage-3 display."
  },
  {
   "property": "C42",
   "status": "partial",
   "theorems": [
    "LatexAst.Ast3.C42_partial",
    "LatexAst.Ast3.C42_closed_partial",
    "LatexAst.Ast3.C42_no_dollar_partial",
    "LatexAst.Ast3.C42_short_partial",
    "LatexAst.Ast3.C42_exact_partial",
    "LatexAst.Ast3.C42_false"
   ],
   "note": "C42_exact_partial says exactly which sources make the parser panic. Terminates on every string and panics only if a dollar formula runs over a multi-line non-text chunk; the full claim is false of the code (C42_false)."
  },
  {
   "property": "C43",
   "status": "partial",
   "theorems": [
    "LatexAst.Ast3.C43_partial",
    "LatexAst.Ast3.C43_step_partial",
    "LatexAst.Ast3.C43_exact_partial",
    "LatexAst.Ast3.C43_false"
   ],
   "note": "False of the code (C43_false). After any history of checked calls the document validates if and only if no top-level text of a section contains a paragraph gap (C43_exact_partial)."
  },
  {
   "property": "C44",
   "status": "proved",
   "theorems": [
    "LatexAst.Ast3.C44",
    "LatexAst.Ast3.C44_source"
   ],
   "note": ""
  },
  {
   "property": "C45",
   "status": "partial",
   "theorems": [
    "LatexAst.Ast3.C45_no_body",
    "LatexAst.Ast3.C45_many_partial",
    "LatexAst.Ast3.C45_partial",
    "LatexAst.Ast3.C45_false"
   ],
   "note": "False of the code with two document environments: all but the last are lost (C45_false); the sections are given exactly for any number of them (C45_many_partial)."
  },
  {
   "property": "C46",
   "status": "partial",
   "theorems": [
    "LatexAst.Ast3.C46_partial",
    "LatexAst.Ast3.C46_exact_partial",
    "LatexAst.Ast3.C46_accepts_partial",
    "LatexAst.Ast3.C46_unique_partial",
    "LatexAst.Ast3.C46_false"
   ],
   "note": "C46_exact_partial says exactly which sources are rejected, with which error on which line. Upper bound for all stage-3 errors, lower bound when dollars are closed; full claim false (line 0, C46_false)."
  },
  {
   "property": "C47",
   "status": "proved",
   "theorems": [
    "LatexAst.Ast2.C47",
    "LatexAst.Ast2.C47_parsed"
   ],
   "note": ""
  },
  {
   "property": "C48",
   "status": "proved",
   "theorems": [
    "LatexAst.Ast1.C48",
    "LatexAst.Ast1.C48_history",
    "LatexAst.Ast2.C48",
    "LatexAst.Ast2.C48_history",
    "LatexAst.Ast3.C48",
    "LatexAst.Ast3.C48_history"
   ],
   "note": ""
  },
  {
   "property": "C49",
   "status": "proved",
   "theorems": [
    "LatexAst.Ast1.C49"
   ],
   "note": ""
  },
  {
   "property": "C50",
   "status": "proved",
   "theorems": [
    "LatexAst.Ast3.C50"
   ],
   "note": ""
  },
  {
   "property": "C51",
   "status": "proved",
   "theorems": [
    "LatexAst.Ast1.C51",
    "LatexAst.Ast1.C51_error",
    "LatexAst.Ast1.C51_any",
    "LatexAst.Ast1.C51_unique"
   ],
   "note": "The parser computes exactly the declarative grammar of Spec/Grammar.lean, for every source."
  },
  {
   "property": "C52",
   "status": "proved",
   "theorems": [
    "LatexAst.Ast1.C52",
    "LatexAst.Ast1.C52_error",
    "LatexAst.Ast1.C52_needs_complete"
   ],
   "note": ""
  },
  {
   "property": "C53",
   "status": "proved",
   "theorems": [
    "LatexAst.Ast2.C53",
    "LatexAst.Ast2.C53_error",
    "LatexAst.Ast2.C53_parsed",
    "LatexAst.Ast2.C53_unique",
    "LatexAst.Ast2.C53_any",
    "LatexAst.Ast2.C53_any_plain",
    "LatexAst.Ast2.C53_any_example"
   ],
   "note": "The conversion computes exactly the declarative relation of Spec/Conversion.lean; C53_any is for every document, panics included (Spec/AnyConversion.lean)."
  },
  {
   "property": "C54",
   "status": "proved",
   "theorems": [
    "LatexAst.Ast2.C54",
    "LatexAst.Ast2.C54_shift",
    "LatexAst.Ast2.C54_source",
    "LatexAst.Ast2.C54_error_line"
   ],
   "note": ""
  },
  {
   "property": "C55",
   "status": "proved",
   "theorems": [
    "LatexAst.Ast3.C55",
    "LatexAst.Ast3.C55_ok",
    "LatexAst.Ast3.C55_error",
    "LatexAst.Ast3.C55_unique"
   ],
   "note": "The conversion computes exactly the declarative relation of Spec/MathsRule.lean, errors and panics included."
  },
  {
   "property": "C56",
   "status": "proved",
   "theorems": [
    "LatexAst.Ast3.C56",
    "LatexAst.Ast3.C56_text"
   ],
   "note": ""
  },
  {
   "property": "C57",
   "status": "proved",
   "theorems": [
    "LatexAst.Ast3.C57",
    "LatexAst.Ast3.C57_unique",
    "LatexAst.Ast3.C57_option"
   ],
   "note": "The conversion computes exactly the declarative relation of Spec/DocumentRule.lean."
  },
  {
   "property": "C58",
   "status": "proved",
   "theorems": [
    "LatexAst.Ast3.C58",
    "LatexAst.Ast3.C58_unique"
   ],
   "note": "Functional correctness of the whole pipeline."
  },
  {
   "property": "C59",
   "status": "proved",
   "theorems": [
    "LatexAst.C59_letter",
    "LatexAst.C59_blank",
    "LatexAst.Ast1.C59_name",
    "LatexAst.Ast3.C59_break"
   ],
   "note": ""
  },
  {
   "property": "C60",
   "status": "proved",
   "theorems": [
    "LatexAst.Ast2.C60",
    "LatexAst.Ast2.C60_panics",
    "LatexAst.Ast2.C60_unique"
   ],
   "note": "The conversion computes exactly the declarative relation of Spec/BackRule.lean."
  },
  {
   "property": "C61",
   "status": "proved",
   "theorems": [
    "LatexAst.Ast3.C61",
    "LatexAst.Ast3.C61_chunks",
    "LatexAst.Ast3.C61_panics",
    "LatexAst.Ast3.C61_unique"
   ],
   "note": "The conversion computes exactly the declarative relation of Spec/BackRule.lean."
  },
  {
   "property": "C62",
   "status": "proved",
   "theorems": [
    "LatexAst.Ast2.C62_scope",
    "LatexAst.Ast2.C62_scope_error",
    "LatexAst.Ast2.C62_scope_text",
    "LatexAst.Ast2.C62_command",
    "LatexAst.Ast2.C62_command_covers",
    "LatexAst.Ast2.C62_command_text",
    "LatexAst.Ast2.C62_scope_whole",
    "LatexAst.Ast2.C62_command_whole",
    "LatexAst.Ast2.C62_scope_back",
    "LatexAst.Ast2.C62_scope_back_panics",
    "LatexAst.Ast2.C62_command_back",
    "LatexAst.Ast3.C62_scope",
    "LatexAst.Ast3.C62_command",
    "LatexAst.Ast3.C62_covers",
    "LatexAst.Ast3.C62_environment",
    "LatexAst.Ast3.C62_scope_back",
    "LatexAst.Ast3.C62_command_back",
    "LatexAst.Ast3.C62_environment_back",
    "LatexAst.Ast3.C62_maths_back"
   ],
   "note": "Stage 1 to 2 for contents numbered in order, which parsed ones are."
  },
  {
   "property": "C63",
   "status": "proved",
   "theorems": [
    "LatexAst.Ast1.C63",
    "LatexAst.Ast1.C63_text",
    "LatexAst.Ast1.C63_document"
   ],
   "note": ""
  },
  {
   "property": "C64",
   "status": "proved",
   "theorems": [
    "LatexAst.C64",
    "LatexAst.C64_internal",
    "LatexAst.C64_line",
    "LatexAst.C64_one_line"
   ],
   "note": "For every table of characters that the standard library prints unescaped."
  },
  {
   "property": "C65",
   "status": "partial",
   "theorems": [
    "LatexAst.Ast3.C65_partial",
    "LatexAst.Ast3.C65_false"
   ],
   "note": "False of the code for documents without a line break in the preamble (C65_false); the theorem says exactly when the conversion returns, and what it prints."
  },
  {
   "property": "C66",
   "status": "proved",
   "theorems": [
    "LatexAst.Ast1.C66",
    "LatexAst.Ast1.C66_builds",
    "LatexAst.Ast1.C66_error",
    "LatexAst.Ast1.C66_sharp",
    "LatexAst.Ast2.C66_environments",
    "LatexAst.Ast2.C66_environments_builds",
    "LatexAst.Ast3.C66_maths",
    "LatexAst.Ast3.C66_maths_debug",
    "LatexAst.Ast3.C66_maths_builds",
    "LatexAst.Ast3.C66_maths_sharp",
    "LatexAst.Ast3.C66_maths_wraps"
   ],
   "note": "The parsers with u32/i32 arithmetic as a parameter (Model/Machine, Machine2, Machine3) agree with the parsers over natural numbers for every source of fewer than 2^32 - 1 characters (stage 3: 2^31); C66_sharp and C66_maths_sharp show the bounds are exact; C66_maths_wraps shows where debug and release builds differ."
  },
  {
   "property": "C67",
   "status": "proved",
   "theorems": [
    "LatexAst.Ast1.C67",
    "LatexAst.Ast1.C67_bound",
    "LatexAst.Ast1.C67_deep",
    "LatexAst.Ast2.C67",
    "LatexAst.Ast2.C67_bound",
    "LatexAst.Ast2.C67_deep",
    "LatexAst.Ast3.C67",
    "LatexAst.Ast3.C67_bound",
    "LatexAst.Ast3.C67_deep"
   ],
   "note": "The restricted parsers parseFuel n / convFuel n / mathsFuel n stop when more than n calls are nested."
  },
  {
   "property": "C68",
   "status": "proved",
   "theorems": [
    "LatexAst.Ast1.C68",
    "LatexAst.Ast1.C68_answer",
    "LatexAst.Ast1.C68_bound",
    "LatexAst.Ast1.C68_least",
    "LatexAst.Ast1.C68_flat",
    "LatexAst.Ast1.C68_deep",
    "LatexAst.Ast2.C68",
    "LatexAst.Ast2.C68_answer",
    "LatexAst.Ast2.C68_answer_source",
    "LatexAst.Ast2.C68_bound",
    "LatexAst.Ast2.C68_source",
    "LatexAst.Ast2.C68_deep",
    "LatexAst.Ast3.C68",
    "LatexAst.Ast3.C68_maths",
    "LatexAst.Ast3.C68_answer",
    "LatexAst.Ast3.C68_answer_maths",
    "LatexAst.Ast3.C68_answer_source",
    "LatexAst.Ast3.C68_source",
    "LatexAst.Ast3.C68_text",
    "LatexAst.Ast3.C68_scopes"
   ],
   "note": "Steps are counted by second copies of the parsers (Model/Cost1, Cost2, Cost3), proved to give the same answers."
  },
  {
   "property": "C69",
   "status": "proved",
   "theorems": [
    "LatexAst.Ast1.C69_lines",
    "LatexAst.Ast1.C69_lines_sharp",
    "LatexAst.Ast1.C69_push",
    "LatexAst.Ast1.C69_validate",
    "LatexAst.Ast2.C69_lines",
    "LatexAst.Ast2.C69_push",
    "LatexAst.Ast2.C69_validate",
    "LatexAst.Ast2.C69_back",
    "LatexAst.Ast2.C69_back_parsed",
    "LatexAst.Ast3.C69_lines",
    "LatexAst.Ast3.C69_push",
    "LatexAst.Ast3.C69_validate",
    "LatexAst.Ast3.C69_back",
    "LatexAst.Ast3.C69_back_wraps"
   ],
   "note": "Model/MachineLines and Model/MachineBack: the same functions with u32 arithmetic as a parameter."
  },
  {
   "property": "C70",
   "status": "proved",
   "theorems": [
    "LatexAst.Ast1.C70_text",
    "LatexAst.Ast1.C70_lines",
    "LatexAst.Ast1.C70_valid",
    "LatexAst.Ast1.C70_history",
    "LatexAst.Ast2.C70_text",
    "LatexAst.Ast2.C70_lines",
    "LatexAst.Ast2.C70_valid",
    "LatexAst.Ast2.C70_history",
    "LatexAst.Ast3.C70_text",
    "LatexAst.Ast3.C70_valid"
   ],
   "note": ""
  },
  {
   "property": "C71",
   "status": "proved",
   "theorems": [
    "LatexAst.Ast2.C71",
    "LatexAst.Ast2.C71_injective",
    "LatexAst.Ast2.C71_written",
    "LatexAst.Ast2.C71_parsed",
    "LatexAst.Ast2.C71_source",
    "LatexAst.Ast2.C71_unconditional_false"
   ],
   "note": ""
  },
  {
   "property": "C72",
   "status": "partial",
   "theorems": [
    "LatexAst.Ast3.C72_exact_partial",
    "LatexAst.Ast3.C72_partial",
    "LatexAst.Ast3.C72_parsed_partial",
    "LatexAst.Ast3.C72_false"
   ],
   "note": "False of the code without conditions (C72_false). Proved exactly when it holds (C72_exact_partial): if and only if it comes from a canonical stage-2 document with exactly one document environment, equal blanks after its begin and end, whose maths is kept. Also for documents with one document environment (equal blanks after its begin and end) whose stage-2 form is canonical and whose maths is kept."
  },
  {
   "property": "C73",
   "status": "proved",
   "theorems": [
    "LatexAst.Ast3.C73",
    "LatexAst.Ast3.C73_error",
    "LatexAst.Ast3.C73_unclosed",
    "LatexAst.Ast3.C73_shift",
    "LatexAst.Ast3.C73_shift_converse_false",
    "LatexAst.Ast3.C73_trailing",
    "LatexAst.Ast3.C73_preamble",
    "LatexAst.Ast3.C73_source"
   ],
   "note": "C73_unclosed and C73_shift_converse_false are witnesses that the error line depends on the first part and that the shift is one way."
  },
  {
   "property": "C74",
   "status": "proved",
   "theorems": [
    "LatexAst.Ast1.C74",
    "LatexAst.Ast2.C74",
    "LatexAst.Ast3.C74"
   ],
   "note": ""
  },
  {
   "property": "C75",
   "status": "proved",
   "theorems": [
    "LatexAst.ScopeVariant.C75_opening",
    "LatexAst.ScopeVariant.C75_closing",
    "LatexAst.ScopeVariant.C75_is",
    "LatexAst.ScopeVariant.C75_distinct"
   ],
   "note": "A panic (unreachable!) is modelled as none."
  },
  {
   "property": "C76",
   "status": "proved",
   "theorems": [
    "LatexAst.Ast1.C76",
    "LatexAst.Ast1.C76_comments"
   ],
   "note": "The exact statement, where the simpler property C01 is false of the code."
  },
  {
   "property": "C77",
   "status": "proved",
   "theorems": [
    "LatexAst.Ast1.C77",
    "LatexAst.Ast1.C77_none",
    "LatexAst.Ast2.C77",
    "LatexAst.Ast2.C77_none",
    "LatexAst.Ast3.C77",
    "LatexAst.Ast3.C77_none"
   ],
   "note": "The exact statement, where the simpler property C02 is false of the code."
  },
  {
   "property": "C78",
   "status": "proved",
   "theorems": [
    "LatexAst.Ast1.C78"
   ],
   "note": "The exact statement, where the simpler property C06 is false of the code."
  },
  {
   "property": "C79",
   "status": "proved",
   "theorems": [
    "LatexAst.Ast1.C79",
    "LatexAst.Ast1.C79_structure",
    "LatexAst.Ast1.C79_structure_example"
   ],
   "note": "The exact statement, where the simpler property C11 is false of the code."
  },
  {
   "property": "C80",
   "status": "proved",
   "theorems": [
    "LatexAst.Ast1.C80",
    "LatexAst.Ast1.C80_text"
   ],
   "note": "The exact statement, where the simpler property C14 (and C19) is false of the code."
  },
  {
   "property": "C81",
   "status": "proved",
   "theorems": [
    "LatexAst.Ast2.C81",
    "LatexAst.Ast2.C81_place",
    "LatexAst.Ast2.C81_correct"
   ],
   "note": "The exact statement, where the simpler property C25 is false of the code."
  },
  {
   "property": "C82",
   "status": "proved",
   "theorems": [
    "LatexAst.Ast2.C82",
    "LatexAst.Ast2.C82_same"
   ],
   "note": "The exact statement, where the simpler property C26 is false of the code."
  },
  {
   "property": "C83",
   "status": "proved",
   "theorems": [
    "LatexAst.Ast2.C83",
    "LatexAst.Ast2.C83_length",
    "LatexAst.Ast2.C83_returns",
    "LatexAst.Ast2.C83_panics",
    "LatexAst.Ast2.C83_returns_example"
   ],
   "note": "The exact statement, where the simpler property C27 is false of the code."
  },
  {
   "property": "C84",
   "status": "proved",
   "theorems": [
    "LatexAst.Ast2.C84_exact",
    "LatexAst.Ast2.C84",
    "LatexAst.Ast2.C84_exact_example"
   ],
   "note": "The exact statement, where the simpler property C30 is false of the code."
  },
  {
   "property": "C85",
   "status": "proved",
   "theorems": [
    "LatexAst.Ast3.C85"
   ],
   "note": "The exact statement, where the simpler property C34 is false of the code."
  },
  {
   "property": "C86",
   "status": "proved",
   "theorems": [
    "LatexAst.Ast3.C86",
    "LatexAst.Ast3.C86_chunks",
    "LatexAst.Ast3.C86_document",
    "LatexAst.Ast3.C86_kept",
    "LatexAst.Ast3.C86_read_back",
    "LatexAst.Ast3.C35_verbatim_example"
   ],
   "note": "The exact statement, where the simpler property C35 (and C72) is false of the code."
  },
  {
   "property": "C87",
   "status": "proved",
   "theorems": [
    "LatexAst.Ast3.C87"
   ],
   "note": "The exact statement, where the simpler property C37 is false of the code."
  },
  {
   "property": "C88",
   "status": "proved",
   "theorems": [
    "LatexAst.Ast3.C88",
    "LatexAst.Ast3.C88_returns",
    "LatexAst.Ast3.C88_same"
   ],
   "note": "The exact statement, where the simpler property C41 is false of the code."
  },
  {
   "property": "C89",
   "status": "proved",
   "theorems": [
    "LatexAst.Ast3.C89_panic",
    "LatexAst.Ast3.C89_error",
    "LatexAst.Ast3.C89_ok"
   ],
   "note": "The exact statement, where the simpler property C42 (and C46) is false of the code."
  },
  {
   "property": "C90",
   "status": "proved",
   "theorems": [
    "LatexAst.Ast3.C90",
    "LatexAst.Ast3.C90_none"
   ],
   "note": "The exact statement, where the simpler property C45 is false of the code."
  },
  {
   "property": "C91",
   "status": "proved",
   "theorems": [
    "LatexAst.Ast3.C91"
   ],
   "note": "The exact statement, where the simpler property C43 is false of the code."
  },
  {
   "property": "C92",
   "status": "proved",
   "theorems": [
    "LatexAst.Ast3.C92"
   ],
   "note": "The exact statement, where the simpler property C65 is false of the code."
  },
  {
   "property": "C93",
   "status": "proved",
   "theorems": [
    "LatexAst.Ast3.C93",
    "LatexAst.Ast3.C93_difference"
   ],
   "note": "The exact statement, where the simpler property C20 for stage-3 documents is false of the code."
  },
  {
   "property": "C94",
   "status": "proved",
   "theorems": [
    "LatexAst.Ast2.C94",
    "LatexAst.Ast2.C94_structure",
    "LatexAst.Ast2.C94_example"
   ],
   "note": ""
  },
  {
   "property": "C95",
   "status": "proved",
   "theorems": [
    "LatexAst.Ast3.C95",
    "LatexAst.Ast3.C95_example"
   ],
   "note": ""
  },
  {
   "property": "C96",
   "status": "proved",
   "theorems": [
    "LatexAst.Ast1.C96",
    "LatexAst.Ast1.C96_new",
    "LatexAst.Ast1.C96_push",
    "LatexAst.Ast1.C96_nodes",
    "LatexAst.Ast1.C96_example",
    "LatexAst.Ast2.C96",
    "LatexAst.Ast2.C96_new",
    "LatexAst.Ast2.C96_push",
    "LatexAst.Ast2.C96_nodes",
    "LatexAst.Ast2.C96_example",
    "LatexAst.Ast3.C96",
    "LatexAst.Ast3.C96_new",
    "LatexAst.Ast3.C96_push",
    "LatexAst.Ast3.C96_nodes",
    "LatexAst.Ast3.C96_example"
   ],
   "note": ""
  },
  {
   "property": "C97",
   "status": "proved",
   "theorems": [
    "LatexAst.Ast1.C97",
    "LatexAst.Ast2.C97",
    "LatexAst.Ast3.C97",
    "LatexAst.C97_exchange",
    "LatexAst.C97_example",
    "LatexAst.C97_needed",
    "LatexAst.collapse_renaming"
   ],
   "note": "Renaming of characters commutes with every operation of every stage; C97_needed shows the side conditions cannot be dropped."
  },
  {
   "property": "C98",
   "status": "proved",
   "theorems": [
    "LatexAst.Ast1.C98",
    "LatexAst.Ast2.C98",
    "LatexAst.Ast2.C98_convert",
    "LatexAst.Ast3.C98",
    "LatexAst.Ast3.C98_convert",
    "LatexAst.Ast3.C98_accepted",
    "LatexAst.C98_example",
    "LatexAst.C98_needed"
   ],
   "note": "For comment-free sources without escaped line end, as the property says; C98_needed shows both conditions are needed."
  },
  {
   "property": "C99",
   "status": "proved",
   "theorems": [
    "LatexAst.Ast1.C99",
    "LatexAst.Ast1.C99_prefix",
    "LatexAst.Ast1.C99_final",
    "LatexAst.Ast1.C99_example",
    "LatexAst.Ast1.C99_doomed"
   ],
   "note": "The completion by brackets is for beginnings without comment and without dangling backslash, as the property says; the rest for all."
  },
  {
   "property": "C100",
   "status": "proved",
   "theorems": [
    "LatexAst.Ast1.C100",
    "LatexAst.Ast1.C100_kept",
    "LatexAst.Ast1.C100_example",
    "LatexAst.Ast2.C100",
    "LatexAst.Ast2.C100_prefix",
    "LatexAst.Ast2.C100_final",
    "LatexAst.Ast2.C100_repaired",
    "LatexAst.Ast3.C100_prefix",
    "LatexAst.Ast3.C100_final",
    "LatexAst.Ast3.C100_panic",
    "LatexAst.Ast3.C100_repaired",
    "LatexAst.Ast3.C100_example"
   ],
   "note": "Grown is proved at stages 1 and 2; at stage 3 (where unfinished maths is no document) which errors are final."
  },
  {
   "property": "C101",
   "status": "proved",
   "theorems": [
    "LatexAst.Ast1.C101",
    "LatexAst.Ast1.C101_settles",
    "LatexAst.Ast1.C101_end",
    "LatexAst.Ast1.C101_weight",
    "LatexAst.Ast1.C101_example",
    "LatexAst.Ast1.C101_refused",
    "LatexAst.Ast2.C101",
    "LatexAst.Ast2.C101_settles",
    "LatexAst.Ast2.C101_example"
   ],
   "note": ""
  },
  {
   "property": "C102",
   "status": "proved",
   "theorems": [
    "LatexAst.Ast1.C102",
    "LatexAst.Ast1.C102_example",
    "LatexAst.Ast1.C102_needed",
    "LatexAst.Ast2.C102",
    "LatexAst.Ast2.C102_example",
    "LatexAst.Ast3.C102",
    "LatexAst.Ast3.C102_example"
   ],
   "note": "C102_needed shows the exception."
  },
  {
   "property": "C103",
   "status": "proved",
   "theorems": [
    "LatexAst.Ast1.C103",
    "LatexAst.Ast1.C103_example",
    "LatexAst.Ast2.C103",
    "LatexAst.Ast2.C103_example",
    "LatexAst.Ast3.C103",
    "LatexAst.Ast3.C103_accepted",
    "LatexAst.Ast3.C103_example"
   ],
   "note": "At stages 2 and 3 the error line is one of the two the property allows; both happen (examples)."
  },
  {
   "property": "C104",
   "status": "proved",
   "theorems": [
    "LatexAst.Ast1.C104",
    "LatexAst.Ast1.C104_example",
    "LatexAst.Ast1.C104_needed",
    "LatexAst.Ast2.C104",
    "LatexAst.Ast2.C104_example",
    "LatexAst.Ast2.C104_converse_false",
    "LatexAst.Ast3.C104",
    "LatexAst.Ast3.C104_environment",
    "LatexAst.Ast3.C104_example"
   ],
   "note": "C104_needed shows both conditions are needed, C104_converse_false that a source that is refused can break out."
  },
  {
   "property": "C105",
   "status": "proved",
   "theorems": [
    "LatexAst.Ast1.C105",
    "LatexAst.Ast1.C105_arguments",
    "LatexAst.Ast1.C105_argument",
    "LatexAst.Ast1.C105_example",
    "LatexAst.Ast1.C105_needed",
    "LatexAst.Ast2.C105",
    "LatexAst.Ast2.C105_argument",
    "LatexAst.Ast2.C105_example",
    "LatexAst.Ast3.C105",
    "LatexAst.Ast3.C105_argument",
    "LatexAst.Ast3.C105_example"
   ],
   "note": "C105_needed shows that the conditions on brackets are needed."
  },
  {
   "property": "C106",
   "status": "proved",
   "theorems": [
    "LatexAst.Ast1.C106",
    "LatexAst.Ast1.C106_parsed",
    "LatexAst.Ast1.C106_example",
    "LatexAst.Ast1.C106_needed",
    "LatexAst.Ast1.C106_sharp",
    "LatexAst.Ast1.C106_sharp_example",
    "LatexAst.Ast2.C106",
    "LatexAst.Ast2.C106_parsed",
    "LatexAst.Ast2.C106_example"
   ],
   "note": "C106_parsed says which parsed documents survive. C106_needed shows that the initial blank matters, C106_sharp that no part of the condition can be dropped."
  },
  {
   "property": "C107",
   "status": "proved",
   "theorems": [
    "LatexAst.Ast3.C107",
    "LatexAst.Ast3.C107_unique",
    "LatexAst.Ast3.C107_parsed",
    "LatexAst.Ast3.C107_source",
    "LatexAst.Ast3.C107_example"
   ],
   "note": "C107_unique shows that Stands determines the line."
  },
  {
   "property": "C108",
   "status": "proved",
   "theorems": [
    "LatexAst.Ast1.C108",
    "LatexAst.Ast1.C108_nil",
    "LatexAst.Ast1.C108_text",
    "LatexAst.Ast1.C108_scope",
    "LatexAst.Ast1.C108_command",
    "LatexAst.Ast1.C108_replace",
    "LatexAst.Ast1.C108_example",
    "LatexAst.Ast2.C108",
    "LatexAst.Ast2.C108_nil",
    "LatexAst.Ast2.C108_text",
    "LatexAst.Ast2.C108_scope",
    "LatexAst.Ast2.C108_command",
    "LatexAst.Ast2.C108_environment",
    "LatexAst.Ast2.C108_replace",
    "LatexAst.Ast2.C108_example"
   ],
   "note": "The examples also show that the conditions of joining are needed."
  },
  {
   "property": "C109",
   "status": "proved",
   "theorems": [
    "LatexAst.Ast3.C109",
    "LatexAst.Ast3.C109_chunks",
    "LatexAst.Ast3.C109_printed",
    "LatexAst.Ast3.C109_no_body",
    "LatexAst.Ast3.C109_example",
    "LatexAst.Ast3.C109_moved"
   ],
   "note": "C109_moved is a witness that the condition on maths is needed."
  },
  {
   "property": "C110",
   "status": "proved",
   "theorems": [
    "LatexAst.Ast3.C110_exact",
    "LatexAst.Ast3.C110_panics",
    "LatexAst.Ast3.C110_exact_example",
    "LatexAst.Ast3.C110",
    "LatexAst.Ast3.C110_otherwise",
    "LatexAst.Ast3.C110_section",
    "LatexAst.Ast3.C110_recognisable",
    "LatexAst.Ast3.C110_example",
    "LatexAst.Ast3.C110_needed",
    "LatexAst.Ast3.C110_panic"
   ],
   "note": "C110_needed and C110_panic show that the conditions are needed."
  },
  {
   "property": "C111",
   "status": "proved",
   "theorems": [
    "LatexAst.Ast3.C111",
    "LatexAst.Ast3.C111_lines",
    "LatexAst.Ast3.C111_class",
    "LatexAst.Ast3.C111_example",
    "LatexAst.Ast3.C111_needed"
   ],
   "note": "C111_needed shows that an edit that adds newlines in a dollar formula can make loading panic."
  },
  {
   "property": "C112",
   "status": "proved",
   "theorems": [
    "LatexAst.Ast3.C112",
    "LatexAst.Ast3.C112_body",
    "LatexAst.Ast3.C112_replace",
    "LatexAst.Ast3.C112_cut",
    "LatexAst.Ast3.C112_example",
    "LatexAst.Ast3.C112_replace_example"
   ],
   "note": "All statements are equivalences. The examples also show that the conditions of joining are needed."
  },
  {
   "property": "C113",
   "status": "proved",
   "theorems": [
    "LatexAst.Ast3.C113_document",
    "LatexAst.Ast3.C113_nil",
    "LatexAst.Ast3.C113_append",
    "LatexAst.Ast3.C113_text",
    "LatexAst.Ast3.C113_break",
    "LatexAst.Ast3.C113_scope",
    "LatexAst.Ast3.C113_command",
    "LatexAst.Ast3.C113_environment",
    "LatexAst.Ast3.C113_brackets",
    "LatexAst.Ast3.C113_dollars",
    "LatexAst.Ast3.C113_example"
   ],
   "note": "All statements are equivalences; together they decide survival recursively. C113_example includes formulas that cannot be saved, such as $\\alpha$."
  },
  {
   "property": "C114",
   "status": "proved",
   "theorems": [
    "LatexAst.Ast2.C114",
    "LatexAst.Ast2.C114_no_error",
    "LatexAst.Ast2.C114_panics",
    "LatexAst.Ast2.C114_returns",
    "LatexAst.Ast2.C114_parsed",
    "LatexAst.Ast2.C114_parsed_panics",
    "LatexAst.Ast2.C114_example",
    "LatexAst.Ast2.C114_panics_example",
    "LatexAst.Ast2.C114_needed",
    "LatexAst.Ast2.C114_panic"
   ],
   "note": "C114_panics and C114_parsed_panics say exactly when there is a panic. C114_needed shows that neither condition can be dropped, C114_panic that a parsed document can panic."
  },
  {
   "property": "C115",
   "status": "proved",
   "theorems": [
    "LatexAst.Ast3.C115",
    "LatexAst.Ast3.C115_rule",
    "LatexAst.Ast3.C115_made",
    "LatexAst.Ast3.C115_returns",
    "LatexAst.Ast3.C115_panics",
    "LatexAst.Ast3.C115_settles",
    "LatexAst.Ast3.C115_grows",
    "LatexAst.Ast3.C115_loses",
    "LatexAst.Ast3.C115_panic"
   ],
   "note": "C115_rule with C115_made says what comes back; C115_loses and C115_panic are concrete cases in which something changes or panics."
  },
  {
   "property": "C116",
   "status": "proved",
   "theorems": [
    "LatexAst.Ast3.C116",
    "LatexAst.Ast3.C116_no_error",
    "LatexAst.Ast3.C116_class",
    "LatexAst.Ast3.C116_named",
    "LatexAst.Ast3.C116_settles",
    "LatexAst.Ast3.C116_settles_twice",
    "LatexAst.Ast3.C116_returns",
    "LatexAst.Ast3.C116_returns_case",
    "LatexAst.Ast3.C116_returns_apart",
    "LatexAst.Ast3.C116_apart",
    "LatexAst.Ast3.C116_no_error_apart",
    "LatexAst.Ast3.C116_settles_apart",
    "LatexAst.Ast3.C116_case",
    "LatexAst.Ast3.C116_case_after",
    "LatexAst.Ast3.C116_joins",
    "LatexAst.Ast3.C116_unnamed"
   ],
   "note": "Trails is the condition, on what follows the document environment, of the theorems with _apart: nothing needs to be put together there. The examples are concrete documents: two that come back, one whose texts are put together and one whose class changes."
  },
  {
   "property": "C117",
   "status": "proved",
   "theorems": [
    "LatexAst.Ast3.C117",
    "LatexAst.Ast3.C117_read",
    "LatexAst.Ast3.C117_document",
    "LatexAst.Ast3.C117_all",
    "LatexAst.Ast3.C117_ahead",
    "LatexAst.Ast3.C117_oneway",
    "LatexAst.Ast3.C117_progress",
    "LatexAst.Ast3.C117_settles",
    "LatexAst.Ast3.C117_example",
    "LatexAst.Ast3.C117_steady",
    "LatexAst.Ast3.C117_unsteady"
   ],
   "note": "C117_steady shows a source all whose rounds have one document environment; C117_unsteady one that gets a second."
  },
  {
   "property": "C118",
   "status": "proved",
   "theorems": [
    "LatexAst.Ast3.C118",
    "LatexAst.Ast3.C118_document",
    "LatexAst.Ast3.C118_example",
    "LatexAst.Ast3.C118_forward",
    "LatexAst.Ast3.C118_before",
    "LatexAst.Ast3.C118_forward_document",
    "LatexAst.Ast3.C118_moved",
    "LatexAst.Ast3.C118_one_way",
    "LatexAst.Ast3.C118_back",
    "LatexAst.Ast3.C118_back_document",
    "LatexAst.Ast3.C118_there_and_back",
    "LatexAst.Ast3.C118_forth_and_back",
    "LatexAst.Ast3.C118_one_body",
    "LatexAst.Ast3.C118_document_there_and_back",
    "LatexAst.Ast3.C118_case"
   ],
   "note": "C118_moved shows a text that moves, C118_one_way that the relation is not symmetric."
  },
  {
   "property": "C119",
   "status": "proved",
   "theorems": [
    "LatexAst.Ast3.C119",
    "LatexAst.Ast3.C119_lines",
    "LatexAst.Ast3.C119_one",
    "LatexAst.Ast2.C119_stage2",
    "LatexAst.Ast3.C119_example"
   ],
   "note": ""
  },
  {
   "property": "C120",
   "status": "proved",
   "theorems": [
    "LatexAst.Ast3.C120",
    "LatexAst.Ast3.C120_depth",
    "LatexAst.Ast3.C120_document",
    "LatexAst.Ast3.C120_unsaved",
    "LatexAst.Ast3.C120_unsaved_example",
    "LatexAst.Ast3.C120_orders"
   ],
   "note": ""
  },
  {
   "property": "C121",
   "status": "proved",
   "theorems": [
    "LatexAst.Ast3.C121",
    "LatexAst.Ast3.C121_even",
    "LatexAst.Ast3.C121_document",
    "LatexAst.Ast3.C121_source",
    "LatexAst.Ast3.C121_odd",
    "LatexAst.Ast3.C121_odd_example",
    "LatexAst.Ast3.C121_example",
    "LatexAst.Ast3.C121_source_example"
   ],
   "note": ""
  },
  {
   "property": "C122",
   "status": "proved",
   "theorems": [
    "LatexAst.Ast3.C122",
    "LatexAst.Ast3.C122_document",
    "LatexAst.Ast3.C122_unsaved",
    "LatexAst.Ast3.C122_example",
    "LatexAst.Ast3.C122_unsaved_example"
   ],
   "note": ""
  },
  {
   "property": "C123",
   "status": "proved",
   "theorems": [
    "LatexAst.Ast3.C123",
    "LatexAst.Ast3.C123_calls",
    "LatexAst.Ast3.C123_document",
    "LatexAst.Ast3.C123_exact",
    "LatexAst.Ast3.C123_source"
   ],
   "note": ""
  },
  {
   "property": "C124",
   "status": "proved",
   "theorems": [
    "LatexAst.Ast3.C124",
    "LatexAst.Ast3.C124_read",
    "LatexAst.Ast3.C124_calls",
    "LatexAst.Ast3.C124_lost",
    "LatexAst.Ast3.C124_example"
   ],
   "note": ""
  },
  {
   "property": "C125",
   "status": "proved",
   "theorems": [
    "LatexAst.Ast2.C125",
    "LatexAst.Ast2.C125_unbounded",
    "LatexAst.Ast2.C125_source"
   ],
   "note": ""
  }
 ]
}