{"id": "C01", "title": "Stage-1 parse/print round trip", "statement": "If ast1::Document::from_str(s) returns Ok(d), then d.to_string() equals s with its comments removed: nothing else is dropped, added, changed or reordered.", "quantifier": "every string s that the stage-1 parser accepts", "why_tests_cant": "The input space is all Unicode strings with arbitrary nesting; the repo test compares one 13-line document.", "anchors": ["src/ast1/document.rs: <Document as FromStr>::from_str", "src/ast1/scope.rs: Display", "src/ast1/command.rs: Display"]}
{"id": "C02", "title": "Comments have no effect", "statement": "Replacing a comment (an unescaped % and the rest of its line, the newline excluded) by nothing never changes the result of ast1::Document::from_str, whether the result is Ok or Err.", "quantifier": "every string and every placement of comments in it, including inside scopes and arguments and at end of file", "why_tests_cant": "A comment can occur in every parser state; no test contains a comment at all.", "anchors": ["src/ast1/document.rs: <Document as FromStr>::from_str"]}
{"id": "C03", "title": "Print/parse round trip of canonical ASTs", "statement": "For every canonical stage-1 AST d (non-empty non-adjacent texts without backslash, percent sign or opening bracket, curly free scopes, letter commands or one-character symbol commands, whitespace before arguments, no bracket of the same kind inside an argument, unambiguous neighbours, line numbers as the parser assigns them), ast1::Document::from_str(&d.to_string()) == Ok(d); hence printing is injective on canonical ASTs.", "quantifier": "all well-formed stage-1 documents of any depth and width", "why_tests_cant": "Structural induction over arbitrarily nested ASTs; tests try a single AST.", "anchors": ["src/ast1/document.rs: <Document as FromStr>::from_str", "src/ast1/command.rs", "src/ast1/scope.rs"]}
{"id": "C04", "title": "No visible character is lost, duplicated or reordered by stage 1", "statement": "If from_str(s) returns Ok(d), then the sequence of characters of d.to_string() other than brackets and backslashes is exactly the corresponding sequence of s without its comments.", "quantifier": "every string accepted by the stage-1 parser", "why_tests_cant": "Needs an invariant through every branch of the parser and its recursion.", "anchors": ["src/ast1/document.rs: <Document as FromStr>::from_str"]}
{"id": "C05", "title": "Stage-1 line count", "statement": "If from_str(s) returns Ok(d), then d.lines() is one more than the number of newline characters of s.", "quantifier": "every string accepted by the stage-1 parser", "why_tests_cant": "Newlines may occur in texts, labels, between arguments, in comments, in nested scopes; a test samples one document.", "anchors": ["src/ast1/document.rs: <Document as FromStr>::from_str", "src/ast1/document.rs: Lines for Document"]}
{"id": "C06", "title": "Stage-1 chunk line numbers", "statement": "If from_str(s) returns Ok(d), then each chunk's line_no() is one more than the number of newlines printed before that chunk in its enclosing document or scope.", "quantifier": "every accepted string and every chunk at every nesting depth of the result", "why_tests_cant": "Line numbers depend on the whole parser history (buffering, trailing whitespace, commands at end of file).", "anchors": ["src/ast1/document.rs: <Document as FromStr>::from_str", "src/ast1/chunk.rs: line_no"]}
{"id": "C07", "title": "Stage-1 error lines point into the source", "statement": "If from_str(s) returns Err(e), then e.line is between 1 and the number of lines of s.", "quantifier": "every rejected string, errors at every nesting depth", "why_tests_cant": "Error lines are re-based through an unbounded number of recursive calls.", "anchors": ["src/ast1/document.rs: <Document as FromStr>::from_str", "src/error.rs: Error"]}
{"id": "C08", "title": "Stage-1 parser is total", "statement": "ast1::Document::from_str returns Ok or Err on every string: it always terminates and never panics (no failed unwrap, unreachable!, or u32 underflow).", "quantifier": "every string", "why_tests_cant": "A panic anywhere in the state space of the parser would do; tests cannot exclude it.", "anchors": ["src/ast1/document.rs: <Document as FromStr>::from_str", "src/ast1/scopevariant.rs: from_opening, from_closing"]}
{"id": "C09", "title": "Shape of parsed stage-1 documents", "statement": "In a parsed document, at every depth: no text is empty, no two texts are adjacent, strings between a command and its arguments are whitespace only, a command label either starts with an ASCII letter and contains no whitespace or bracket, or is a single non-letter character with no arguments.", "quantifier": "every accepted string and every node of its AST", "why_tests_cant": "Quantifies over all nodes of all ASTs the parser can ever produce.", "anchors": ["src/ast1/document.rs: <Document as FromStr>::from_str"]}
{"id": "C10", "title": "Bracket kind is recorded", "statement": "If from_str accepts v.open()+content+v.close() as a scope, the resulting Scope has variant v (for curly, round and square brackets), and a command argument has the variant of its brackets.", "quantifier": "every bracket kind, every scope and argument content, every depth", "why_tests_cant": "Holds per node of unboundedly many ASTs; the tests only look at curly scopes.", "anchors": ["src/ast1/document.rs: flush", "src/ast1/scope.rs: variant"]}
{"id": "C11", "title": "Parsed documents validate", "statement": "If ast1::Document::from_str(s) returns Ok(d), then d.validate() is Ok(()).", "quantifier": "every accepted string", "why_tests_cant": "Relates two independent traversals (parser and validator) on all inputs.", "anchors": ["src/ast1/document.rs: <Document as FromStr>::from_str", "src/ast1/document.rs: Validate for Document"]}
{"id": "C12", "title": "Every opening bracket must be closed", "statement": "If from_str(s) returns Ok, then for each bracket kind, in every suffix of s (comments removed, escaped characters ignored) there are at most as many opening as closing brackets; in particular an opening bracket never followed by enough closing brackets is always rejected.", "quantifier": "every string, every bracket kind, every suffix", "why_tests_cant": "A counting argument over all strings and all positions.", "anchors": ["src/ast1/document.rs: <Document as FromStr>::from_str", "src/error.rs: UnclosedScope, UnclosedArgument"]}
{"id": "C13", "title": "Plain text is left alone", "statement": "A non-empty string without backslash, percent sign or brackets parses to exactly one text chunk, on line 1, with that string; the empty string parses to the empty document; both print back to themselves.", "quantifier": "every string without special characters", "why_tests_cant": "All strings over an infinite alphabet subset.", "anchors": ["src/ast1/document.rs: <Document as FromStr>::from_str"]}
{"id": "C14", "title": "Normalisation is idempotent", "statement": "If from_str(s) returns Ok(d), then from_str(&d.to_string()) returns Ok(d') with d'.to_string() == d.to_string(): parse-print is stable after one pass.", "quantifier": "every accepted string", "why_tests_cant": "Two nested runs of the parser over all inputs.", "anchors": ["src/ast1/document.rs: <Document as FromStr>::from_str"]}
{"id": "C15", "title": "Pushing appends exactly what is pushed", "statement": "After a successful ast1 push or push_chunk, to_string() is the old to_string() followed by the pushed variant's to_string(); after a failed one the document is unchanged and the error is the variant's validation error or IncorrectChunkLineNumber. Same for ast2, and for each section of ast3.", "quantifier": "all documents (not only parsed ones), all variants/chunks", "why_tests_cant": "Quantifies over all documents and all pushed ASTs, including merging of adjacent texts.", "anchors": ["src/ast1/document.rs: push, push_chunk, push_chunk_unchecked", "src/ast2/document.rs: push, push_chunk", "src/ast3/document.rs: push_vec, push_chunk_vec"]}
{"id": "C16", "title": "Documents built with the checked API stay valid", "statement": "Starting from Document::default(), after any finite sequence of push and push_chunk calls (successful or not), validate() returns Ok(()) (ast1 and ast2).", "quantifier": "every finite history of checked pushes", "why_tests_cant": "Histories of unbounded length; line numbers depend on all previous pushes.", "anchors": ["src/ast1/document.rs: push, push_chunk, validate", "src/ast2/document.rs: push, push_chunk, validate"]}
{"id": "C17", "title": "push_chunk accepts exactly the correct line", "statement": "push_chunk(c) succeeds iff c.validate() is Ok and c.line_no() equals the line on which the document currently ends (1 for the empty document); for a valid document that line is lines().  Otherwise it returns c's validation error, or IncorrectChunkLineNumber with that expected line and the given line.", "quantifier": "all documents and chunks (ast1, ast2)", "why_tests_cant": "All pairs of documents and chunks.", "anchors": ["src/ast1/document.rs: push_chunk", "src/ast2/document.rs: push_chunk"]}
{"id": "C18", "title": "validate decides exactly the documented rule", "statement": "ast1 Document::validate() returns Ok iff every top-level chunk's line number is one more than the number of newlines printed before it and every text and every label that is not one byte long, at every depth, contains no backslash, percent sign or bracket (line numbers below the top level are not looked at). The checked constructors accept exactly the same values.", "quantifier": "all stage-1 documents", "why_tests_cant": "An iff between an early-exit traversal and a declarative predicate over all ASTs.", "anchors": ["src/ast1/document.rs: Validate", "src/ast1/chunkvariant.rs: Validate", "src/ast1/command.rs: Validate", "src/ast1/scope.rs: Validate"]}
{"id": "C19", "title": "Valid documents survive printing and parsing", "statement": "If d.validate() is Ok then from_str(&d.to_string()) is Ok(d') with d'.to_string() == d.to_string().", "quantifier": "every valid stage-1 document", "why_tests_cant": "All valid ASTs.", "anchors": ["src/ast1/document.rs: <Document as FromStr>::from_str", "src/ast1/document.rs: Validate"]}
{"id": "C20", "title": "lines() counts printed lines", "statement": "For every stage-1, stage-2 and stage-3 chunk, command, scope, environment and maths block, and for ast1/ast2/ast3 documents, lines() is one more than the number of newlines of to_string().", "quantifier": "all AST nodes of all stages, whether parsed or built", "why_tests_cant": "Structural induction over all ASTs.", "anchors": ["src/ast1/*.rs: Lines", "src/ast2/*.rs: Lines", "src/ast3/*.rs: Lines"]}
{"id": "C21", "title": "Stage 1 to stage 2 preserves the text", "statement": "If ast2::Document::try_from(d) returns Ok(e), then e.to_string() == d.to_string().", "quantifier": "every stage-1 document (not only parsed ones) that converts", "why_tests_cant": "All ASTs with all nestings of environments.", "anchors": ["src/ast2/document.rs: TryFrom<ast1::Document>", "src/ast2/environment.rs: Display"]}
{"id": "C22", "title": "No \\begin or \\end command survives stage 2", "statement": "If ast2::Document::try_from(d) returns Ok(e), no command labelled begin or end occurs anywhere in e (including arguments, scopes and environment contents).", "quantifier": "every stage-1 document that converts, every node of the result", "why_tests_cant": "Quantifies over all nodes of all results.", "anchors": ["src/ast2/document.rs: TryFrom<ast1::Document>", "src/ast2/command.rs: Validate"]}
{"id": "C23", "title": "Environment matching is exactly proper nesting", "statement": "ast2::Document::try_from(d) returns Ok iff, in d and recursively in every scope and argument (other than the label arguments of \\begin and \\end, which are only compared), the \\begin{..}/\\end{..} commands are properly nested with equal labels: each has a curly first argument, every \\end closes the innermost open \\begin with the same label and has no further argument, and none stays open.", "quantifier": "all stage-1 documents with positive, non-decreasing line numbers (in particular all parsed ones)", "why_tests_cant": "An iff between a stack machine and a grammar over all chunk sequences.", "anchors": ["src/ast2/document.rs: TryFrom<ast1::Document>"]}
{"id": "C24", "title": "Stage-2 errors are classified correctly", "statement": "If try_from(d) returns Err: UnclosedEnvironment(l) only if some \\begin with label l has no matching \\end; UnexpectedEnd(l) only if some \\end with label l does not close the innermost open environment; TooManyArgsEnd only if some \\end has more than one argument; NoEnvironmentLabel only if some \\begin or \\end has no curly first argument; no other error type occurs.", "quantifier": "all stage-1 documents that fail to convert", "why_tests_cant": "All failing inputs, errors at any depth.", "anchors": ["src/ast2/document.rs: TryFrom<ast1::Document>", "src/error.rs: ErrorType"]}
{"id": "C25", "title": "Stage-2 error lines point into the source", "statement": "If ast2::Document::from_str(s) returns Err(e), then e.line is between 1 and the number of lines of s.", "quantifier": "every rejected string", "why_tests_cant": "Lines are re-based through unbounded nesting of environments and scopes.", "anchors": ["src/ast2/document.rs: map_e!, try_from"]}
{"id": "C26", "title": "Stage 1 -> 2 -> 1 is the identity", "statement": "If ast1::Document::from_str(s) is Ok(d) and ast2::Document::try_from(d.clone()) is Ok(e), then ast1::Document::from(e) == d.", "quantifier": "every parsed document that converts", "why_tests_cant": "Composition of two recursive conversions over all documents.", "anchors": ["src/ast2/document.rs: TryFrom", "src/ast1/document.rs: From<ast2::Document>", "src/ast2/chunk.rs: IntoChunks"]}
{"id": "C27", "title": "Stage 2 to stage 1 preserves the text", "statement": "ast1::Document::from(e).to_string() == e.to_string().", "quantifier": "every stage-2 document", "why_tests_cant": "All stage-2 ASTs, including those built by hand.", "anchors": ["src/ast1/document.rs: From<ast2::Document>", "src/ast2/chunk.rs: IntoChunks"]}
{"id": "C28", "title": "Stage 2 parser is total", "statement": "ast2::Document::from_str returns Ok or Err on every string: it terminates and never panics.", "quantifier": "every string", "why_tests_cant": "Excludes a panic for all inputs.", "anchors": ["src/ast2/document.rs: from_str, TryFrom, push_buffer!"]}
{"id": "C29", "title": "Stage-2 conversion preserves lines()", "statement": "If ast2::Document::try_from(d) is Ok(e) then e.lines() == d.lines(); for parsed documents it is the number of lines of the source.", "quantifier": "all stage-1 documents that convert", "why_tests_cant": "All ASTs.", "anchors": ["src/ast2/document.rs: Lines, TryFrom"]}
{"id": "C30", "title": "Environment line numbers", "statement": "In a converted document the chunk of an environment carries the line of its \\begin command, and its content is numbered relative to the line on which the content starts.", "quantifier": "all parsed documents and all their environments", "why_tests_cant": "Depends on where newlines occur in arguments and before them.", "anchors": ["src/ast2/document.rs: buffer_start, push_buffer!"]}
{"id": "C31", "title": "Paragraph splitting preserves the text", "statement": "Paragraph::from_chunks(cs) prints exactly as cs, and changes no chunk other than texts.", "quantifier": "all stage-3 chunk sequences", "why_tests_cant": "All strings with all mixes of newlines and whitespace.", "anchors": ["src/ast3/paragraph.rs: from_chunks"]}
{"id": "C32", "title": "Paragraph splitting yields paragraphs", "statement": "In the result of Paragraph::from_chunks, no text contains two newlines separated only by whitespace, no text is empty, every paragraph break produced consists of whitespace with at least two newlines and starts at a newline; every text or break produced from special-character-free text validates.", "quantifier": "all stage-3 chunk sequences", "why_tests_cant": "All strings.", "anchors": ["src/ast3/paragraph.rs: from_chunks", "src/ast3/chunkvariant.rs: Validate"]}
{"id": "C33", "title": "Paragraph splitting is idempotent", "statement": "Applying Paragraph::from_chunks to its own result changes neither the texts nor the breaks.", "quantifier": "all stage-3 chunk sequences", "why_tests_cant": "All strings.", "anchors": ["src/ast3/paragraph.rs: from_chunks"]}
{"id": "C34", "title": "Paragraph line numbers", "statement": "Splitting a text on line n gives chunks whose line numbers are n plus the number of newlines of the text before them.", "quantifier": "all strings and starting lines", "why_tests_cant": "All strings.", "anchors": ["src/ast3/paragraph.rs: from_chunks"]}
{"id": "C35", "title": "Stage 2 to stage 3 preserves the text", "statement": "If ast3::Document::try_from(e) is Ok(f) and e consists of a preamble, one document environment and trailing chunks, then f.to_string() == e.to_string().", "quantifier": "all stage-2 documents with one document environment that convert", "why_tests_cant": "All ASTs, all placements of maths delimiters.", "anchors": ["src/ast3/document.rs: TryFrom<ast2::Document>, Display", "src/ast3/mathsblock.rs: from_chunks"]}
{"id": "C36", "title": "Dollar maths in a text is recognised", "statement": "In a text, $x$ and $$x$$ (x without dollar signs, non-empty for the inline form) become one maths block of dollar kind, inline respectively display, containing x, and the texts around it stay texts in order; a text with an odd number of delimiters is rejected with UnclosedMaths.", "quantifier": "all texts built from dollar-free segments and maths segments", "why_tests_cant": "All sequences of segments.", "anchors": ["src/ast3/mathsblock.rs: from_chunks"]}
{"id": "C37", "title": "Bracket maths must be balanced", "statement": "If the stage-3 conversion accepts a chunk sequence without dollar signs, then \\( .. \\) and \\[ .. \\] occur properly: a closing command outside maths is rejected with UnexpectedMathsEnd, an unclosed opening one with UnclosedMaths, and between them everything becomes the content of one block of the right type.", "quantifier": "all chunk sequences without dollar signs", "why_tests_cant": "All interleavings of chunks and delimiters.", "anchors": ["src/ast3/mathsblock.rs: from_chunks"]}
{"id": "C38", "title": "documentclass is extracted", "statement": "If ast3::Document::from_str succeeds, documentclass() is the printed curly argument of the \\documentclass command of the preamble, None if there is none; two \\documentclass commands with a class give DoubleDocumentClass, two curly arguments TooManyArgsDocumentClass.", "quantifier": "all stage-2 documents", "why_tests_cant": "All preambles.", "anchors": ["src/ast3/document.rs: TryFrom<ast2::Document>"]}
{"id": "C39", "title": "documentclass options are extracted", "statement": "The options of \\documentclass[..] are split at commas; each yields (leading whitespace, key, optional (whitespace before =, whitespace after =, value), trailing whitespace) whose concatenation is the option as written.", "quantifier": "all option strings", "why_tests_cant": "All strings.", "anchors": ["src/ast3/document.rs: TryFrom<ast2::Document> (option loop)"]}
{"id": "C40", "title": "Stage-3 chunks convert back to stage 2 with the same text", "statement": "For every stage-3 chunk c with positive line numbers, the stage-2 chunks c.into_chunks() print exactly as c.", "quantifier": "all stage-3 chunks at any depth", "why_tests_cant": "All ASTs.", "anchors": ["src/ast3/chunk.rs: IntoChunks", "src/ast3/mathsblock.rs: IntoChunks", "src/ast2/{scope,command,environment}.rs: From<ast3>"]}
{"id": "C41", "title": "Stage-3 documents convert back to stage 2", "statement": "ast2::Document::from(f) never panics for a parsed f, and its to_string() equals f.to_string().", "quantifier": "all parsed stage-3 documents", "why_tests_cant": "All inputs.", "anchors": ["src/ast2/document.rs: From<ast3::Document>"]}
{"id": "C42", "title": "Stage-3 parser is total", "statement": "ast3::Document::from_str returns Ok or Err on every string: it terminates and never panics.", "quantifier": "every string", "why_tests_cant": "Excludes a panic for all inputs.", "anchors": ["src/ast3/document.rs: from_str", "src/ast3/mathsblock.rs: from_chunks"]}
{"id": "C43", "title": "Checked ast3 pushes keep sections valid", "statement": "Starting from ast3::Document::default(), after any finite sequence of checked pushes to preamable, body and trailing, validate() returns Ok(()).", "quantifier": "every finite history of checked pushes", "why_tests_cant": "Histories of unbounded length.", "anchors": ["src/ast3/document.rs: push_*, validate"]}
{"id": "C44", "title": "No \\begin, \\end or maths delimiter commands survive stage 3", "statement": "In the result of the stage-3 conversion of a stage-2 document without begin/end commands there is no begin/end command, and none labelled (, ), [ or ].", "quantifier": "all stage-2 documents that convert; every node of the result", "why_tests_cant": "All nodes of all results.", "anchors": ["src/ast3/mathsblock.rs: from_chunks", "src/ast3/document.rs: TryFrom"]}
{"id": "C45", "title": "Sections partition the document", "statement": "In a stage-3 document converted from e, the preamable is what precedes the document environment, the body is its content, trailing is what follows it, and nothing of e is lost; without a document environment everything is preamable.", "quantifier": "all stage-2 documents that convert", "why_tests_cant": "All documents.", "anchors": ["src/ast3/document.rs: TryFrom<ast2::Document>"]}
{"id": "C46", "title": "Stage-3 error lines point into the source", "statement": "If ast3::Document::from_str(s) returns Err(e), then e.line is between 1 and the number of lines of s.", "quantifier": "every rejected string", "why_tests_cant": "All failing inputs.", "anchors": ["src/ast3/document.rs: from_str", "src/ast3/mathsblock.rs: from_chunks"]}
{"id": "C47", "title": "Documents without environments convert unchanged", "statement": "If d contains no begin or end command at any depth, ast2::Document::try_from(d) is Ok(e), e has the same chunks, line numbers, labels and strings as d, and ast1::Document::from(e) is d with adjacent texts merged (hence d itself if d was parsed).", "quantifier": "all stage-1 documents without begin/end", "why_tests_cant": "All ASTs.", "anchors": ["src/ast2/document.rs: TryFrom", "src/ast1/document.rs: From<ast2::Document>"]}
{"id": "C48", "title": "Unchecked pushes append too", "statement": "push_unchecked and push_chunk_unchecked append to the printed document whatever is pushed, and every history of unchecked pushes prints the concatenation of what was pushed, in order (ast1, ast2, each ast3 section; pushes to one ast3 section leave the others unchanged).", "quantifier": "all documents and finite histories of unchecked pushes", "why_tests_cant": "Histories of unbounded length.", "anchors": ["src/ast1/document.rs: push_unchecked, push_chunk_unchecked", "src/ast2/document.rs: push_unchecked", "src/ast3/document.rs: push_*_unchecked"]}
{"id": "C49", "title": "Stage-1 errors are only about brackets", "statement": "If ast1::Document::from_str(s) returns Err(e), the error type is UnexpectedClosing, UnclosedArgument or UnclosedScope (never one of the later-stage or validation errors).", "quantifier": "every source string s and error e", "why_tests_cant": "The set of inputs is infinite; a test only sees the error of one string, while the claim excludes a class of errors for all of them, including errors coming out of nested scopes and arguments.", "anchors": ["src/ast1/document.rs: <Document as FromStr>::from_str", "src/error.rs: Error"]}
{"id": "C50", "title": "Texts of a parsed stage-3 document are clean", "statement": "In a document returned by ast3::Document::from_str, at any depth of any section or body argument, no text is empty, contains a dollar sign, a backslash, a percent sign, an opening bracket or a paragraph gap (two newlines with only whitespace between them), and every ParagraphBreak starts at a newline, is whitespace only and contains at least two newlines.", "quantifier": "every source string that parses; every node of the result", "why_tests_cant": "The claim ranges over every source and every node at every depth, including the contents of maths blocks that are re-parsed recursively.", "anchors": ["src/ast3/paragraph.rs Paragraph::from_chunks", "src/ast3/mathsblock.rs MathsBlock::from_chunks", "src/ast3/document.rs Document::from_str"]}
{"id": "C51", "title": "Stage-1 parsing follows one unambiguous grammar", "statement": "ast1::Document::from_str reads a source by a fixed grammar: a text runs to the next backslash or opening bracket; an opening bracket starts a scope that ends at the matching closing bracket of its kind; a backslash with a non-letter is a one-character command; a backslash with a letter starts a command whose name runs to the next whitespace or special character and whose arguments are the bracketed groups that follow, with only whitespace between them; contents are read as sources of their own; the errors are an unclosed scope or argument (reported on the line where the scope or command starts) and a closing bracket right after a command (reported on its own line). Every source has exactly one reading, and it is the one returned, including line numbers and errors.", "quantifier": "every source string", "why_tests_cant": "The claim fixes the result for every string: tests can only sample strings, while the interplay of escapes, nesting depth and argument lists is unbounded.", "anchors": ["src/ast1/document.rs Document::from_str"]}
{"id": "C52", "title": "Stage-1 reading is compositional", "statement": "If a source a parses and what it ends with cannot be continued (not a letter command, nor whitespace after one), and b starts with a command or a bracket, then a followed by b parses to the chunks of a followed by the chunks of b with their line numbers moved down by the newlines of a; and an error in b is reported at its line moved down likewise.", "quantifier": "every pair of sources a, b", "why_tests_cant": "Both sources are arbitrary and unbounded; a test fixes one pair.", "anchors": ["src/ast1/document.rs Document::from_str"]}
{"id": "C53", "title": "Stage-2 conversion follows one unambiguous rule", "statement": "Converting a stage-1 document to stage 2 (TryFrom) works by a fixed rule: texts, scopes and other commands are converted one by one; a \\begin opens an environment that ends at the matching \\end, whose body, numbered from the end of the \\begin, is converted on its own. The first \\begin or \\end that cannot stand where it is (no label in curly braces, \\end of another environment, \\end with more arguments) is the error, on its own line; an environment open at the end is reported (the outermost one) on the line where its \\begin ends; an error inside a scope or environment is reported with the line of the scope or of the end of the \\begin added to its own, one inside an argument unchanged. Every document converts in exactly one way, and that is what the code returns, chunk by chunk, line numbers and errors included.", "quantifier": "every stage-1 document whose chunks are numbered in order (all parsed documents are)", "why_tests_cant": "The rule fixes the result for every document: nesting depth and the order in which several problems are found are unbounded.", "anchors": ["src/ast2/document.rs TryFrom<ast1::Document>"]}
{"id": "C54", "title": "Stage-2 conversion is compositional", "statement": "If a stage-1 document a converts to stage 2, then a followed by b converts to the result of a followed by the result of b, and fails exactly as b does; moving a convertible document down by k lines moves the result by k lines; hence parsing a source a followed by a source b to stage 2 gives both results one after the other, the second moved down by the newlines of a (under the conditions of C52).", "quantifier": "every pair of documents and of sources", "why_tests_cant": "Both parts are arbitrary and unbounded; a test fixes one pair.", "anchors": ["src/ast2/document.rs TryFrom<ast1::Document>"]}
{"id": "C55", "title": "Stage-3 maths conversion follows one unambiguous rule", "statement": "Converting stage-2 chunks to stage-3 chunks (MathsBlock::from_chunks) works by a fixed rule, for every input: texts without dollar signs, scopes, environments and other commands are converted one by one; \\( .. \\) and \\[ .. \\] enclose bracket maths, brackets of the same kind inside being dropped; a dollar sign opens a formula that ends at the next dollar sign, or at the third one if two adjacent ones open it; of a formula that runs over several texts, the texts before the one in which it is closed are left behind, in front of the formula. The outcome - the chunks with their line numbers, the first error with its line, or the panic for a formula whose lines cannot be counted - is the one the rule gives, and the rule gives exactly one outcome.", "quantifier": "every sequence of stage-2 chunks, nested to any depth, well formed or not", "why_tests_cant": "The rule fixes the result on every input including malformed ones; the interplay of formulas, brackets and nesting is unbounded.", "anchors": ["src/ast3/mathsblock.rs from_chunks", "src/ast3/scope.rs", "src/ast3/command.rs", "src/ast3/environment.rs"]}
{"id": "C56", "title": "Paragraph splitting follows one unambiguous rule", "statement": "Splitting stage-3 chunks into paragraphs keeps every chunk that is not a text and replaces every text by the one alternating sequence of texts and paragraph breaks that prints as the text did, in which no text contains a break, every break is as long as it can be, texts after a break start with a character that is not whitespace, and the pieces are numbered by the line on which they start (breaks with k >= 3 newlines: k-1 lines later). That sequence exists, is unique, and is what the code returns.", "quantifier": "every sequence of stage-3 chunks and every text", "why_tests_cant": "The rule fixes the split of every string; runs of whitespace and newlines are unbounded.", "anchors": ["src/ast3/paragraph.rs from_chunks"]}
{"id": "C57", "title": "Stage-3 document conversion follows one unambiguous rule", "statement": "Converting a stage-2 document to stage 3 (TryFrom) works by a fixed rule, for every input and any number of document environments: class and options come from the \\documentclass commands before the first document environment, options being cut at commas and read one by one; the preamble is what precedes the first document environment, the body is the last one, and what remains is the trailing part. Failures come in a fixed order: \\documentclass problems, then the document environments in order, then the preamble, then the trailing part. The rule gives exactly one outcome, and the code returns it.", "quantifier": "every stage-2 document", "why_tests_cant": "The rule fixes the result on every document; number and order of document environments, \\documentclass commands and options are unbounded.", "anchors": ["src/ast3/document.rs TryFrom<ast2::Document>"]}
{"id": "C58", "title": "Every source means exactly one thing, and parsing returns it", "statement": "Parsing a source as an ast3::Document returns - as a document, an error with its line, or a panic - exactly what the composition of the three rules gives: the grammar of stage 1 (C51, comments dropped), the rule for environments (C53), and the rule for documents (C57 with C55 and C56). Every source has exactly one meaning.", "quantifier": "every source string", "why_tests_cant": "The statement relates all inputs to all outcomes; any test fixes finitely many.", "anchors": ["src/ast3/document.rs FromStr", "src/ast2/document.rs FromStr", "src/ast1/document.rs FromStr"]}
{"id": "C59", "title": "Letters and blanks are exactly the listed characters", "statement": "A backslash followed by two characters or more is read as a single command of that name exactly if the first of them is one of the 52 ASCII letters and the others are neither Unicode white space nor one of \\ % { } [ ] ( ). A text is broken into paragraphs exactly if somewhere in it two newlines are separated by nothing but Unicode white space (25 characters).", "quantifier": "every character and every string", "why_tests_cant": "There are over a million characters and unboundedly many strings; tests try a handful.", "anchors": ["src/ast1/document.rs FromStr", "src/ast3/paragraph.rs from_chunks"]}
{"id": "C60", "title": "Stage 2 to stage 1 follows one unambiguous rule", "statement": "Converting an ast2::Document to an ast1::Document (From) gives, for every input, exactly what one rule prescribes, line numbers included: an environment becomes a \\begin command with the label as its first argument, the content numbered on from the line of the environment, and an \\end command as many lines below as there are newlines in between; everything else stays; adjacent texts are put together. It panics exactly when the rule gives nothing: an environment label that does not parse, or a non-empty environment on line 0.", "quantifier": "every stage-2 document, parsed or built", "why_tests_cant": "Documents are trees of unbounded size; the rule fixes every line number in the result.", "anchors": ["src/ast2/chunk.rs into_chunks", "src/ast1/document.rs From<ast2::Document>", "src/ast2/scope.rs to_ast1_scope", "src/ast1/command.rs From<ast2::Command>"]}
{"id": "C61", "title": "Stage 3 to stage 2 follows one unambiguous rule", "statement": "Converting an ast3::Document (or stage-3 chunks) to stage 2 gives, for every input, exactly what one rule prescribes, line numbers included: maths blocks become their content in delimiters, numbered on from the line of the block; paragraph breaks become texts; the sections are put together around a document environment with fixed offsets. It panics exactly when the rule gives nothing (a maths block on line 0, or no newline up to the end of the document environment).", "quantifier": "every stage-3 document, parsed or built", "why_tests_cant": "Documents are trees of unbounded size; the rule fixes every line number in the result.", "anchors": ["src/ast3/chunk.rs into_chunks", "src/ast3/mathsblock.rs into_chunks", "src/ast2/document.rs From<ast3::Document>", "src/ast2/environment.rs", "src/ast2/scope.rs", "src/ast2/command.rs"]}
{"id": "C62", "title": "Parts convert on their own as they do in a document", "statement": "The public conversions of single scopes, commands, environments and maths blocks (TryFrom between stages 1, 2 and 3, From back) give, for every input, exactly what the rules for documents (C53, C55, C60, C61) give for their contents, keep label, brackets and the strings before arguments, report the first failure with the line counted inside the part, and (stage 1 to 2) print the same text. A document that consists of one scope or command converts to a document of that converted part.", "quantifier": "every scope, command, environment and maths block of every stage, parsed or built", "why_tests_cant": "Parts are trees of unbounded size and failures can be at any depth.", "anchors": ["src/ast2/scope.rs", "src/ast2/command.rs", "src/ast3/scope.rs", "src/ast3/command.rs", "src/ast3/environment.rs", "src/ast2/environment.rs", "src/ast3/mathsblock.rs into_chunks", "src/ast1/scope.rs", "src/ast1/command.rs"]}
{"id": "C63", "title": "push_into_unchecked appends everything, in order", "statement": "Pushing a value that turns into chunks onto a stage-1 document appends exactly those chunks, in order, putting adjacent texts together; the printed text is the old text followed by the text of the value. Pushing the chunks of a stage-2 document one after the other onto an empty document is the same as converting the document.", "quantifier": "every document and every value, any number of chunks", "why_tests_cant": "The number of chunks and the text merges depend on the history of pushes.", "anchors": ["src/ast1/document.rs push_into_unchecked", "src/ast1/into_chunks.rs"]}
{"id": "C64", "title": "Error messages identify the error", "statement": "The displayed message of an error determines the error: its line, its kind and the label, bracket or character it is about, however they are escaped; it starts with the line in decimal digits and never spans more than one line.", "quantifier": "every error value, with labels of any length and content", "why_tests_cant": "Labels are arbitrary strings; two errors could collide only for particular labels with quotes, backslashes or control characters.", "anchors": ["src/error.rs Display", "src/internal_error.rs Display"]}
{"id": "C65", "title": "A parsed document converts all the way back", "statement": "A document parsed at stage 3 that converts to stage 2 converts on to stage 1 without a panic, and the result prints as the document is written. In the code this holds exactly if the body is empty or some line ends in the preamble: otherwise the document environment is numbered 0 and the second conversion panics.", "quantifier": "every source, with any nesting of environments, formulas and scopes", "why_tests_cant": "Line numbers of nested environments are shifted at every level, and one zero anywhere panics.", "anchors": ["src/ast2/document.rs From<ast3::Document>", "src/ast1/document.rs From<ast2::Document>", "src/ast2/chunk.rs into_chunks"]}
{"id": "C66", "title": "Machine integers do not overflow on sources that fit", "statement": "On every source of fewer than 2^32 - 1 characters the stage-1 and stage-2 parsers give the same answer in debug and in release builds, no line number or depth overflows, and the answer is the one computed with unbounded integers. At 2^32 - 1 characters a debug build can panic. The third parser counts consecutive newlines in an i32: on every source of fewer than 2^31 characters a debug build gives the answer computed with unbounded integers (with a panic where a subtraction goes below zero), and a release build gives the same answer wherever the debug build does not panic; on 2^31 newlines a debug build panics.", "quantifier": "every source of fewer than 2^32 - 1 (stage 3: 2^31) characters and every behaviour of an overflowing u32 or i32 operation", "why_tests_cant": "An overflow needs a source of gigabytes, and depths and line numbers come from different counters at every nesting level.", "anchors": ["src/ast1/document.rs from_str", "src/ast2/document.rs TryFrom<ast1::Document>", "src/ast3/document.rs TryFrom<ast2::Document>", "src/ast3/mathsblock.rs from_chunks", "src/ast3/paragraph.rs from_chunks", "src/error.rs Error.line"]}
{"id": "C67", "title": "Recursion is exactly as deep as the document is nested", "statement": "The parser of each stage calls itself for the content of every scope, argument, environment and maths block. An accepted input needs exactly one nested call more than the nesting depth of the result, and any input, accepted or not, at most one more than it has opening brackets (stage 3: brackets and dollars). There is no limit on the depth: for every n there is an accepted source of 2n characters that needs more than n nested calls (so a fixed-size stack can be exhausted by nesting alone, never by length).", "quantifier": "every source, every stage-1 document, every sequence of stage-2 chunks, every number of calls", "why_tests_cant": "The depth of recursion is not observable in a unit test, and every bound on it is about all inputs of that nesting.", "anchors": ["src/ast1/document.rs from_str", "src/ast2/document.rs TryFrom<ast1::Document>", "src/ast3/mathsblock.rs from_chunks"]}
{"id": "C68", "title": "Parsing time is bounded by length times nesting", "statement": "Counting every call of the stage-1 parser (recursive ones included) and every iteration of its loops over characters: an accepted source takes at least its length plus one steps and at most (depth + 1) * (length + 1), where depth is the nesting depth of the document read; any source, accepted or rejected, takes at most (number of opening brackets + 1) * (length + 1). Without opening brackets the time is exactly length + 1. It is not linear in general: n nested pairs of braces take exactly (n+1)^2 steps. Forming the environments (stage 2) takes at most (depth + 1) * (nodes + printed characters + 1) steps, also when what is read of the arguments of begin and end is counted, and n nested environments take more than 6n^2. The maths and paragraphs stage is linear however deep the nesting: at most 15 * (nodes + 2 * printed characters + 2) steps for every stage-2 document, accepted or not. From source to stage 3: at most (opening brackets + 16) * (3 * length + 2).", "quantifier": "every source text, every stage-1 and stage-2 document", "why_tests_cant": "A test can time some inputs; that no input of a given length and nesting takes longer is a statement about all of them.", "anchors": ["src/ast1/document.rs from_str", "src/ast2/document.rs try_from", "src/ast3/mathsblock.rs from_chunks", "src/ast3/paragraph.rs from_chunks", "src/ast3/document.rs try_from"]}
{"id": "C69", "title": "No overflow in lines(), pushing and the conversions back", "statement": "With u32 line numbers, whatever an overflow does (panic in a debug build, wrap in a release build): lines() of a document at any stage is the number of lines it prints, as long as that is less than 2^32, and the bound is exact; validate() expects the right line numbers (fewer than 2^32 - 2 newlines); the line number given to a pushed chunk is exact while it and the chunk's lines fit; converting a parsed stage-2 document of a source of fewer than 2^31 - 1 characters back to stage 1 succeeds and gives the same document in both builds; converting a stage-3 document back to stage 2 gives the same as with unbounded integers whenever that does not panic, nesting depth n, line numbers at most M and length L satisfy (n+2)*M + 2*L + 2 < 2^32. Where it does panic (a maths block on line 0), a release build silently continues with a wrong line number.", "quantifier": "every document of each stage within the bounds, every behaviour on overflow", "why_tests_cant": "Overflow needs documents of billions of lines or hostile line numbers; no test suite holds them, and the absence of overflow is about every intermediate sum.", "anchors": ["src/ast1/document.rs lines", "src/ast2/chunk.rs into_chunks", "src/ast1/document.rs From<ast2::Document>", "src/ast2/document.rs From<ast3::Document>", "src/ast3/chunk.rs into_chunks", "src/ast3/mathsblock.rs"]}
{"id": "C70", "title": "Editing a document in place", "statement": "Replacing one node, at any depth (inside scopes, arguments, environments, maths blocks), by another changes the printed document at that place only, from the old node's text to the new node's, and changes lines() by as much as the node's. If the document validated before, it validates afterwards if and only if the new node validates and either has as many lines as the old one or nothing follows the edited top-level chunk (in its section, for stage 3). Hence any history of edits with valid nodes of the same number of lines keeps a document valid.", "quantifier": "every document of each stage, every position in it, every replacement, every history of such edits", "why_tests_cant": "All trees, positions and edit histories.", "anchors": ["src/ast1/chunk.rs variant_mut, decompose", "src/ast1/document.rs Validate, Lines, Display", "src/ast2/chunk.rs variant_mut", "src/ast2/document.rs Validate", "src/ast3/chunk.rs variant_mut", "src/ast3/document.rs Validate, Display"]}
{"id": "C71", "title": "Print/parse round trip of stage-2 documents, exactly", "statement": "A stage-2 document, however it was built, is read back as itself from its printed form if and only if it is canonical: it has no \\begin or \\end command of its own, its environment labels can be read as source text, and, with its environments written out on the lines on which they are printed, it is canonical as a stage-1 document. Hence printing is injective on these documents. A source that stage 2 accepts is printed back unchanged if and only if it contains no comment, no dropped bracket and no dropped backslash.", "quantifier": "every stage-2 document; every source that stage 2 accepts", "why_tests_cant": "All trees, including hand-built ones with wrong line numbers.", "anchors": ["src/ast2/document.rs Display, FromStr, TryFrom<ast1::Document>", "src/ast2/environment.rs Display", "src/ast1/document.rs FromStr"]}
{"id": "C72", "title": "Stage-3 documents are read back from their printed form", "statement": "The stage-3 document of a source is read back as itself from its printed form.", "quantifier": "every source", "why_tests_cant": "All sources.", "anchors": ["src/ast3/document.rs Display, FromStr, TryFrom<ast2::Document>", "src/ast3/mathsblock.rs from_chunks"]}
{"id": "C73", "title": "Stage-3 reading is compositional", "statement": "Reading stage-2 chunks after others that are read without a problem gives, after the result of the first part, exactly what the second part gives on its own; an error or a panic of the second part is that of the second part alone, except that an unclosed dollar formula is reported on the line of the last bracket maths of the first part. Moving chunks that are read without a problem down by k lines moves the result down by k lines. Hence appending source without a document environment to the source of a whole document appends what it gives on its own, further down, to the trailing section and changes nothing else.", "quantifier": "every pair of stage-2 chunk sequences; every shift; every pair of sources", "why_tests_cant": "All pairs of inputs, any nesting of formulas over several texts.", "anchors": ["src/ast3/mathsblock.rs from_chunks", "src/ast3/paragraph.rs from_chunks", "src/ast3/document.rs TryFrom<ast2::Document>"]}
{"id": "C74", "title": "Syntax trees are no larger than the source", "statement": "Parsing a source to stage 1, 2 or 3 gives a tree with at most as many nodes (chunks and arguments; at stage 3 those of all sections) as the source has characters, however many environments, paragraphs and formulas it is cut into; a stage-3 document has at most as many document options.", "quantifier": "every source that parses, at each stage", "why_tests_cant": "All sources of any size and nesting; memory use must stay linear.", "anchors": ["src/ast1/document.rs FromStr", "src/ast2/document.rs TryFrom", "src/ast3/document.rs TryFrom", "src/ast3/mathsblock.rs from_chunks", "src/ast3/paragraph.rs from_chunks"]}
{"id": "C75", "title": "The bracket tables agree", "statement": "For every character: from_opening returns a kind exactly if the character is the open() of that kind, and panics exactly if is_opening is false; the same for from_closing, close() and is_closing. No character is both, and different kinds have different brackets.", "quantifier": "every Unicode character and every bracket kind", "why_tests_cant": "All 1.1 million characters.", "anchors": ["src/ast1/scopevariant.rs ScopeVariant"]}
{"id": "C76", "title": "Exactly which sources stage 1 prints back", "statement": "A source that ast1::Document::from_str accepts is printed back unchanged if and only if it is built from texts, free scopes in curly braces, symbol commands, and letter commands whose arguments contain no bracket of their own kind, with no backslash before a blank or opening bracket after a letter command, no comment and no final backslash. With comments free of backslashes, the same for the source without its comments.", "quantifier": "every source", "why_tests_cant": "An if-and-only-if over all inputs: tests can show neither direction.", "anchors": ["src/ast1/document.rs FromStr, Display"]}
{"id": "C77", "title": "Exactly what comments do", "statement": "Parsing a source gives the same result (Ok or Err) as parsing it with every comment replaced by the first backslash in it, or by nothing if it has none. This holds at all three stages.", "quantifier": "every source", "why_tests_cant": "An if-and-only-if over all inputs: tests can show neither direction.", "anchors": ["src/ast1/document.rs FromStr", "src/ast2/document.rs FromStr", "src/ast3/document.rs FromStr"]}
{"id": "C78", "title": "Exact stage-1 line numbers", "statement": "In a parsed document, at any depth, line_no() of a chunk is one more than the newlines printed before it in its sequence, except: one more than that for the command backslash-newline, and the number of its last line for a blank text at the end of a sequence after a letter command.", "quantifier": "every parsed source, every chunk at every depth", "why_tests_cant": "An if-and-only-if over all inputs: tests can show neither direction.", "anchors": ["src/ast1/document.rs FromStr, Display"]}
{"id": "C79", "title": "Exactly which parsed stage-1 documents validate", "statement": "A parsed document validates if and only if its top-level chunks are numbered by the newlines printed before them (that is: no top-level command is backslash-newline and the last chunk is not a blank text with a newline after a letter command) and no text at any depth contains a closing bracket.", "quantifier": "every parsed source", "why_tests_cant": "An if-and-only-if over all inputs: tests can show neither direction.", "anchors": ["src/ast1/document.rs validate"]}
{"id": "C80", "title": "Exactly which stage-1 documents survive printing and parsing", "statement": "A parsed document is read back from its printed form if and only if it has no free scope inside a curly argument and no } in a text inside a free scope. A document built in any way keeps its text when printed, parsed and printed if and only if its printed form is one of the sources of C76.", "quantifier": "every parsed source; every document", "why_tests_cant": "An if-and-only-if over all inputs: tests can show neither direction.", "anchors": ["src/ast1/document.rs FromStr, Display"]}
{"id": "C81", "title": "Exactly what stage 2 reports, and where", "statement": "Stage 2 rejects a source that stage 1 accepts with a given error if and only if it is the first problem with its environments; the line reported is the line of the problem, plus one for every scope and environment around it, minus the line breaks before the arguments around it.", "quantifier": "every source stage 1 accepts, every error", "why_tests_cant": "An if-and-only-if over all inputs: tests can show neither direction.", "anchors": ["src/ast2/document.rs TryFrom", "src/ast2/environment.rs"]}
{"id": "C82", "title": "Exactly what going to stage 2 and back changes", "statement": "ast1::Document::from(ast2::Document::try_from(d)) returns for every parsed d that converts, and differs from d only in that each \\begin and its \\end have moved down by the line breaks in the arguments of the \\begin; so it is d if and only if no such arguments contain a line break.", "quantifier": "every parsed source that converts", "why_tests_cant": "An if-and-only-if over all inputs: tests can show neither direction.", "anchors": ["src/ast1/document.rs From<ast2::Document>", "src/ast2/document.rs TryFrom"]}
{"id": "C83", "title": "Exactly when going from stage 2 to stage 1 keeps the text", "statement": "When ast1::Document::from(e) returns, its text is that of e if and only if the label of every environment at any depth is printed back by stage 1; it is never longer. The conversion returns if and only if every such label is accepted by stage 1 and no environment with content is on line 0 counted from the environments around it; otherwise it panics.", "quantifier": "every stage-2 document for which the conversion returns", "why_tests_cant": "An if-and-only-if over all inputs: tests can show neither direction.", "anchors": ["src/ast1/document.rs From<ast2::Document>"]}
{"id": "C84", "title": "Exact line numbers of stage 2", "statement": "In a parsed stage-2 document, at any depth, line_no() of a chunk is one more than the newlines printed before it in its sequence, except: one more than that for the command backslash-newline; plus the line breaks before and in the arguments of its \\begin for an environment; and the number of its last line for a blank text after a letter command or an environment at the end of a sequence that is not the content of an environment.", "quantifier": "every source stage 2 accepts, every chunk at every depth", "why_tests_cant": "An if-and-only-if over all inputs: tests can show neither direction.", "anchors": ["src/ast2/document.rs TryFrom", "src/ast2/environment.rs"]}
{"id": "C85", "title": "Exact line numbers of paragraphs", "statement": "Splitting a text on line n gives pieces numbered n plus the newlines before them, plus k-1 for a break with k >= 3 newlines.", "quantifier": "every text and line number", "why_tests_cant": "An if-and-only-if over all inputs: tests can show neither direction.", "anchors": ["src/ast3/paragraph.rs"]}
{"id": "C86", "title": "Exactly which sources and documents survive stage 3", "statement": "A source that stage 3 accepts is printed back by it if and only if stage 1 prints it back and it has exactly one document environment, with the same blanks after its \\begin and \\end, in and around which all maths is kept: no text left behind by a dollar formula, display formulas closed by two adjacent dollars, no bracket delimiter inside maths of its own kind. A stage-3 document is read back from its printed form if and only if it comes from such a document in canonical form.", "quantifier": "every source stage 3 accepts; every stage-3 document", "why_tests_cant": "An if-and-only-if over all inputs: tests can show neither direction.", "anchors": ["src/ast3/document.rs", "src/ast3/mathsblock.rs"]}
{"id": "C87", "title": "Exactly what bracket maths becomes", "statement": "Without dollar signs: chunks are accepted if and only if the bracket delimiters match, and what they become is determined by them; otherwise they are rejected with the first delimiter that does not match. There is no panic.", "quantifier": "every sequence of stage-2 chunks without dollar signs", "why_tests_cant": "An if-and-only-if over all inputs: tests can show neither direction.", "anchors": ["src/ast3/mathsblock.rs from_chunks"]}
{"id": "C88", "title": "Exactly when and what stage 3 converts back to stage 2", "statement": "ast2::Document::from(f) returns if and only if no maths block is on line 0 and there is a line break before the end of the document environment, otherwise it panics; the result prints as f was written, which is f.to_string() if and only if the same string follows \\begin and \\end.", "quantifier": "every stage-3 document", "why_tests_cant": "An if-and-only-if over all inputs: tests can show neither direction.", "anchors": ["src/ast2/document.rs From<ast3::Document>"]}
{"id": "C89", "title": "Exactly which sources stage 3 accepts, rejects, or panics on", "statement": "ast3::Document::from_str returns a document, an error with its line, or panics according to the first problem in the source: one of the earlier stages, a repeated or overloaded \\documentclass, maths that is not closed or is closed without being open, or (panic) a dollar formula closed more than one line below the number of a chunk in it.", "quantifier": "every source", "why_tests_cant": "An if-and-only-if over all inputs: tests can show neither direction.", "anchors": ["src/ast3/document.rs TryFrom", "src/ast3/mathsblock.rs from_chunks"]}
{"id": "C90", "title": "Exact sections of a stage-3 document", "statement": "With document environments, the preamble is what precedes the first, the body is the last, and trailing is everything else after the first that is not a document environment; without one, everything is preamble.", "quantifier": "every stage-2 document that converts, with any number of document environments", "why_tests_cant": "An if-and-only-if over all inputs: tests can show neither direction.", "anchors": ["src/ast3/document.rs TryFrom"]}
{"id": "C91", "title": "Exactly which built stage-3 documents validate", "statement": "After any history of checked pushes to the sections of a default document, it validates if and only if no top-level text contains a paragraph gap.", "quantifier": "every history of checked calls", "why_tests_cant": "An if-and-only-if over all inputs: tests can show neither direction.", "anchors": ["src/ast3/document.rs push, validate"]}
{"id": "C92", "title": "Exactly which stage-3 documents convert back to stage 1", "statement": "A parsed stage-3 document that converts to stage 2 converts on to stage 1 if and only if its body is empty or there is a line break in its preamble; it then prints as it was written; otherwise the second conversion panics.", "quantifier": "every source stage 3 accepts", "why_tests_cant": "An if-and-only-if over all inputs: tests can show neither direction.", "anchors": ["src/ast1/document.rs From<ast2::Document>", "src/ast2/document.rs From<ast3::Document>"]}
{"id": "C93", "title": "Exactly when lines() of a stage-3 document is right", "statement": "ast3::Document::lines() is the number of printed lines if and only if neither the arguments of the document environment nor the string before its label contain a newline; otherwise it is too small by those newlines (the latter counted twice).", "quantifier": "every stage-3 document", "why_tests_cant": "An if-and-only-if over all inputs: tests can show neither direction.", "anchors": ["src/ast3/document.rs lines"]}
{"id": "C94", "title": "Exactly which parsed stage-2 documents validate", "statement": "A parsed stage-2 document validates if and only if no top-level command is backslash-newline, no top-level \\begin has a newline before or in its arguments, the last chunk is not a blank text with a newline after a letter command or an environment, no text at any depth contains a closing bracket and no environment label a special character.", "quantifier": "every source stage 2 accepts", "why_tests_cant": "An if-and-only-if over all inputs: tests can show neither direction.", "anchors": ["src/ast2/document.rs validate"]}
{"id": "C95", "title": "Exactly which parsed stage-3 documents validate", "statement": "A parsed stage-3 document validates if and only if the top-level chunks of each section are numbered, from 1, by the newlines printed before them in that section, no text at any depth contains a closing bracket and no environment label a special character.", "quantifier": "every source stage 3 accepts", "why_tests_cant": "An if-and-only-if over all inputs: tests can show neither direction.", "anchors": ["src/ast3/document.rs validate"]}
{"id": "C96", "title": "Validation reports the first fault", "statement": "When validate() fails it reports exactly the first fault: top-level chunks are looked at in order (in stage 3, preamable, body, trailing); a wrong line number of a chunk is reported, with the expected and the actual number, before what is inside the chunk; inside a chunk the first faulty node in reading order (a node before its contents, arguments before the content of an environment) is reported, with the first offending character. The checked constructors, push and push_chunk fail with the same error for what they are given.", "quantifier": "every document, chunk, command, scope, environment and maths block, valid or not, of all three stages, and every error", "why_tests_cant": "The reported error depends on everything before the fault; tests see particular documents with one fault.", "anchors": ["src/ast1/document.rs validate, push, push_chunk", "src/ast2/document.rs validate", "src/ast3/document.rs validate", "src/ast3/chunkvariant.rs validate"]}
{"id": "C97", "title": "Characters of the same kind are treated alike", "statement": "The outcome depends only on what characters are, not on which they are: if every character of a source is renamed by a map that keeps newlines, delimiters, backslash and percent, and keeps whitespace whitespace and letters letters (for stage 2 also injective and fixing the letters of begin/end, for stage 3 also fixing those of document/documentclass and dollar, comma, equals), then parsing the renamed source gives the renamed tree, or the same error with renamed labels; and conversion, printing, line counting and validation commute with renaming. In particular any two ordinary characters of the same kind may be exchanged.", "quantifier": "every source, every document of all three stages, and every renaming that keeps the kinds of characters", "why_tests_cant": "There are over a million characters; tests use a few ASCII ones. The statement says no other character is singled out anywhere.", "anchors": ["src/ast1/document.rs from_str", "src/ast2/document.rs try_from", "src/ast3/document.rs try_from", "src/ast3/paragraph.rs"]}
{"id": "C98", "title": "Windows line ends", "statement": "Writing every newline of a comment-free source as CR LF instead of LF (no backslash being directly before a line end or at the very end) changes nothing but the texts: stages 1 and 2 give the same chunks at the same line numbers, or the same error at the same line, with every text, name and blank written with CR LF; stage 3 gives the same paragraphs, paragraph breaks, maths blocks, document options at the same lines up to carriage returns. The conversions 1\u21922 and 2\u21923 have this property for every document. Hence acceptance does not depend on the line ends. With an escaped line end or a comment it does fail.", "quantifier": "every comment-free source without escaped line end; every stage-1 and stage-2 document", "why_tests_cant": "Line ends occur in every position of the grammar (before arguments, in blanks of paragraph breaks, in options, in maths, in errors); tests fix a few positions.", "anchors": ["src/ast1/document.rs from_str", "src/ast2/document.rs try_from", "src/ast3/paragraph.rs from_chunks", "src/ast3/mathsblock.rs from_chunks", "src/ast3/document.rs try_from"]}
{"id": "C99", "title": "Unfinished sources", "statement": "What a user has typed so far can be judged before it is finished. If any continuation at all makes it acceptable to the stage-1 parser, and it has no comment and no dangling backslash, then closing brackets alone do so too, no more of them than it has opening brackets. Every beginning of an acceptable source (comments included, wherever it stops) is itself accepted, or is refused only for an unclosed scope or an unclosed argument; hence an 'unexpected closing bracket' error is final: whatever is typed after it, the source stays refused. An 'unclosed scope' error need not be repairable, since contents are only looked at once the scope is closed.", "quantifier": "every beginning of a source (comment-free for the completion by brackets) and every continuation of it", "why_tests_cant": "It quantifies over all continuations of all beginnings; no test can show that no continuation is accepted.", "anchors": ["src/ast1/document.rs from_str"]}
{"id": "C100", "title": "Typing on", "statement": "When more is written after a source, what had been read of it is kept: if both the beginning and the whole are accepted at stage 1 (or at stage 2), the chunks of the beginning are found again in the same places with the same lines, except that the last text may have become longer, the last command may have got more arguments or (a letter command without arguments) a longer name, and the blanks after a last command may have become a longer text or the blanks before a further argument. The beginning of a source accepted at stage 2 or 3 is accepted or refused for being unfinished only (unclosed scope, argument, environment, maths; \\begin without label; a second \\documentclass, whose name may still grow); all other errors, and panics, are final whatever is written on. Each error of the first kind can indeed be repaired by some continuation of some source.", "quantifier": "every source, every continuation, all three stages", "why_tests_cant": "It quantifies over all continuations of all beginnings; tests sample finitely many cuts and can never show that an error is final.", "anchors": ["src/ast1/document.rs from_str", "src/ast2/document.rs TryFrom", "src/ast3/document.rs TryFrom"]}
{"id": "C101", "title": "Repeated tidying settles", "statement": "Printing a parsed document and parsing the print again, over and over, cannot go on changing the text forever. At stages 1 and 2 the printed text is the source itself or strictly lighter, where the weight of a text is its length with round and square brackets counted twice; so after at most weight(source) <= 2*length(source) rounds either a printed text is refused or it is printed back unchanged from then on, and the texts where this ends are exactly the verbatim ones of C76. One round is not always enough (C14): there are sources that need three.", "quantifier": "every source, every number of rounds, stages 1 and 2", "why_tests_cant": "Termination of an iteration for all sources, with a bound in terms of the source, is not observable by running examples.", "anchors": ["src/ast1/document.rs from_str, Display", "src/ast2/document.rs from_str, Display"]}
{"id": "C102", "title": "A final newline does not matter", "statement": "Appending a line end and any blanks to a source (as editors do on saving) changes nothing but the blanks at the end of the document: at all three stages the source is refused before and after with the identical error, kind and line included, or accepted before and after, and then the document is the same except that its last text has become longer or a text with exactly these blanks has been added (at stage 3: only the preamble, or only the part after the document environment, has changed, and its printed text has the blanks at its end). The one exception is a source that ends with a backslash that escapes what comes next.", "quantifier": "every source that does not end with an escaping backslash, every line end followed by any number of whitespace characters, all three stages", "why_tests_cant": "Unit tests compare a few files with and without final newline; that no source in any parser state is affected is a statement about all of them.", "anchors": ["src/ast1/document.rs from_str", "src/ast2/document.rs from_str, try_from", "src/ast3/document.rs from_str, try_from", "src/ast3/mathsblock.rs from_chunks"]}
{"id": "C103", "title": "Blanks at the beginning move everything down", "statement": "Putting blanks (spaces, line ends) before a source changes nothing but the text at the beginning and the line numbers: at all three stages the source is accepted before if and only if it is accepted after. At stages 1 and 2 the first text of the document has become longer, or a new text with exactly these blanks is there, and every other top-level chunk is as many lines further down as there are line ends in the blanks; at stage 3 only texts and paragraph breaks at the beginning of the preamble have changed and print with the blanks before them, the rest of the preamble and the part after the document environment have moved down, and the class, options, body and all else are equal. A refused source is refused with the same kind of error: at stage 1 on a line exactly that many lines further down, at stages 2 and 3 further down by that number or on the same line (these report some problems on lines counted from inside an argument or formula).", "quantifier": "every source, every non-empty string of whitespace put before it, all three stages", "why_tests_cant": "Unit tests see a few files with a leading blank line; that no construct's parse depends on what blanks stand before is a statement about all sources.", "anchors": ["src/ast1/document.rs from_str", "src/ast2/document.rs from_str, try_from", "src/ast3/document.rs from_str, try_from", "src/ast3/mathsblock.rs from_chunks", "src/ast3/paragraph.rs"]}
{"id": "C104", "title": "An accepted source can be enclosed in an environment", "statement": "If a source s is accepted, then \\begin{x}, s on lines of its own, \\end{x} is accepted, and is that one environment with the document of s inside: nothing of s gets out of the environment, becomes an argument of it, closes it, or is changed by it, apart from the line ends before and after. This holds at stages 1 and 2 and, if s has no document environment of its own, at stage 3, where \\begin{document}..\\end{document} around s gives a document whose body is the preamble that s gives (a line further down, with the line ends), with nothing else, and any other environment around s gives one environment in the preamble. Two conditions: s does not end with an escaping backslash, and does not begin (after blanks and comments) with an opening bracket, which is read as an argument of \\begin.", "quantifier": "every environment name without special characters, every accepted source that meets the two conditions, all three stages", "why_tests_cant": "Templates enclose any body a user supplies; tests can try some bodies, not show that no accepted body breaks out.", "anchors": ["src/ast1/document.rs from_str", "src/ast2/document.rs from_str, try_from", "src/ast3/document.rs from_str, try_from", "src/ast3/mathsblock.rs from_chunks"]}
{"id": "C105", "title": "What is in brackets is read as on its own", "statement": "Putting a (comment-free) source in brackets does not change how it is read. With its brackets of that kind matching, a source in free brackets gives one scope that holds exactly what the source gives on its own, or exactly the same error on the same line, except that at stage 2 an error about environments is reported one line too late. With no brackets of that kind in it, a source as the argument of a command (other than \\begin, \\end, \\documentclass) gives that argument of that command, or exactly the same error. At stage 3 this holds, panics included, for sources without document environment and document class, whose preamble is then the content.", "quantifier": "every comment-free source whose brackets of the kind match (arguments: has none), every bracket kind and command name, all three stages, accepted or not", "why_tests_cant": "Macros and templates substitute arbitrary text into {..} and arguments; tests can try some texts, not show that none is read differently there.", "anchors": ["src/ast1/document.rs from_str", "src/ast2/document.rs from_str, try_from", "src/ast3/document.rs from_str, try_from", "src/ast3/mathsblock.rs from_chunks"]}
{"id": "C106", "title": "Edited texts survive saving and loading", "statement": "If a document survives saving and loading (its printed form is parsed back to it, apart from line numbers), it still does after any number of its texts, at any depth, have been replaced by others that are not empty unless the old one is, begin with a blank if the old one does, are all blank only if the old one is (or begins with a special character), contain no special character the old one does not contain, and begin with a special character only if the old one does. Line numbers need not be kept up. At stage 1 this condition is exact: a replacement of one text by another is safe in every surviving document if and only if it meets it. So a program can edit texts freely: no such edit makes the document unreadable or merges a text with what stands beside it. Which parsed documents survive is stated too.", "quantifier": "every document (parsed or built by hand) of stages 1 and 2 that survives, every set of its texts, every admissible replacement", "why_tests_cant": "Editing text nodes and saving is what such a tree is for; tests can try some edits, not show that none changes the structure that is read back.", "anchors": ["src/ast1/document.rs from_str, fmt", "src/ast1/chunk.rs fmt", "src/ast2/document.rs from_str, try_from, fmt", "src/ast2/chunk.rs fmt"]}
{"id": "C107", "title": "Exact line numbers of stage 3", "statement": "Where stage 3 keeps the text, every chunk it makes of a sequence of stage-2 chunks is on the line of the stage-2 chunk it begins in, plus the newlines of that chunk before it, with two exceptions: a paragraph break with k >= 3 newlines is numbered k-1 lines late, and a dollar formula that is not inside one text has the line of the text in which it is closed. Hence, for a source that stage 3 prints back, line_no() of every chunk of the preamble, the body and what follows it (blanks at the very end excepted) that is not a dollar formula is the line on which it begins (in the body: counted from where the body begins), late only by: k-1 for such a paragraph break, 1 for backslash-newline, and the newlines before and in the arguments of its \\begin for an environment.", "quantifier": "every sequence of stage-2 chunks whose text stage 3 keeps; every source stage 3 prints back, every chunk of every section", "why_tests_cant": "Editors jump to and highlight line_no(); tests can check some chunks of some sources, not that no combination of formulas, paragraphs and environments shifts the rest.", "anchors": ["src/ast3/mathsblock.rs from_chunks", "src/ast3/paragraph.rs from_chunks", "src/ast3/document.rs from_str, try_from"]}
{"id": "C108", "title": "Cutting, pasting and building documents that survive saving and loading", "statement": "Which documents built or edited by a program survive printing and parsing (come back apart from line numbers) is decided piece by piece. Two sequences of chunks, one after the other, survive exactly if each does and they may be joined: no text next to a text; a text right after a letter command begins with a blank if the command has no arguments, and not with a closing bracket if it has; and right after a letter command (and at most one blank text) there is no scope and no command backslash-blank or backslash-opening-bracket. A single text survives exactly if it is not empty and has no backslash, percent sign or opening bracket; a single scope exactly if it is curly, its content survives and no text in it has a closing brace; a single command exactly if it is a letter command with blanks before its arguments, each of which survives and has no bracket of its kind inside, or a one-character command without arguments. At stage 2 the same holds, where an environment ends and begins like a letter command with arguments, commands are not called begin or end, and a single environment survives exactly if there are only blanks before its names, the name read as a document prints as itself and has no curly brackets, the arguments are as those of a command, and the content survives and may be put after a letter command with an argument.", "quantifier": "every sequence of chunks, however it was built", "why_tests_cant": "Programs cut, paste and generate pieces of documents; tests check some combinations, not that these conditions are exactly the ones that matter for all of them.", "anchors": ["src/ast1/document.rs Display, from_str", "src/ast1/chunk.rs Display", "src/ast1/command.rs Display", "src/ast1/scope.rs Display", "src/ast2/document.rs try_from, Display", "src/ast2/environment.rs Display"]}
{"id": "C109", "title": "Going to stage 3 and back to stage 2", "statement": "If ast3::Document::try_from(e) is Ok(f) and ast2::Document::from(f) returns e', then e' is e apart from line numbers and from how texts are cut into chunks, if and only if e has exactly one document environment and all maths in and around it is kept: no text left behind by a dollar formula, display formulas closed by two adjacent dollars, no bracket delimiter with arguments or inside maths of its own kind. For the chunks of any sequence, what comes back is alike exactly if it is printed alike, which is exactly if its maths is kept. Without a document environment an empty one comes back at the end.", "quantifier": "every stage-2 document and every sequence of stage-2 chunks, parsed or built", "why_tests_cant": "The text of the document can be compared by tests for some inputs; that no node is lost, moved or changed (and not just no character) must hold for all documents.", "anchors": ["src/ast3/document.rs TryFrom<ast2::Document>", "src/ast2/document.rs From<ast3::Document>", "src/ast3/mathsblock.rs from_chunks, into_chunks", "src/ast3/chunk.rs into_chunks", "src/ast3/paragraph.rs"]}
{"id": "C110", "title": "Which stage-3 documents survive saving and loading", "statement": "For every stage-3 document f, parsed or built by hand, with any line numbers: ast3::Document::from_str(&f.to_string()) is Ok with f apart from line numbers, if and only if f is calm (in every dollar formula there is at most one newline from each command, scope or environment directly in it to the last of them, apart from those by which stage 2 numbers it late) and f is loadable, piece by piece: the strings after \\begin and \\end{document} agree, the document at stage 2 (formulas spelled out, neighbouring texts joined) survives saving and loading, there is no second document environment, class and options are those of the \\documentclass commands in the preamble, runs of texts and breaks are cut as one text is cut and have no dollar sign, no command is a maths delimiter, bracket formulas do not directly contain brackets of their kind, and dollar formulas have no text in them except at the end, without dollar signs, and are not empty if inline. A loadable document never comes back as another one or as an error; loading it panics exactly if it is not calm.", "quantifier": "every stage-3 document, parsed or built by hand, with any line numbers", "why_tests_cant": "Saving and loading can be tested for sample documents; exactly which of the infinitely many documents that can be built come back must be settled for all of them.", "anchors": ["src/ast3/document.rs FromStr, Display, TryFrom<ast2::Document>", "src/ast3/mathsblock.rs from_chunks, Display", "src/ast3/paragraph.rs from_chunks", "src/ast2/document.rs FromStr, TryFrom<ast1::Document>", "src/ast1/document.rs FromStr"]}
{"id": "C111", "title": "Edited texts of stage-3 documents survive saving and loading", "statement": "If a stage-3 document survives saving and loading, and any number of its texts and paragraph breaks, at any depth, also in formulas, are replaced (a text by one that is empty, or begins with a blank, exactly if the old one does, and that is all blank, contains a special character, dollar sign or paragraph break, begins with a special character, or ends in a newline and blanks only if the old one does; a break by another break), then the new document, with its class and options being those of its \\documentclass commands, either survives too or loading it panics; it never comes back as another document or as an error. It survives exactly if its dollar formulas are calm (C110), and in particular if no text or break gets more newlines than it had.", "quantifier": "every stage-3 document (parsed or built by hand) that survives, every set of its texts and breaks, every admissible replacement", "why_tests_cant": "Editing text nodes and saving is what such a tree is for; tests can try some edits, not show that none changes the structure that is read back.", "anchors": ["src/ast3/document.rs FromStr, Display, TryFrom<ast2::Document>", "src/ast3/mathsblock.rs from_chunks, Display", "src/ast3/paragraph.rs from_chunks", "src/ast2/document.rs FromStr", "src/ast1/document.rs FromStr"]}
{"id": "C112", "title": "Cutting, pasting and joining stage-3 chunks", "statement": "Two sequences of stage-3 chunks put one after the other survive saving and loading exactly if each of them does and they may be joined: texts and paragraph breaks meet as one text is cut (two texts or two breaks do not meet, the text before a break does not end in a newline and blanks, the text after it begins with a non-blank), and, read as stage-2 chunks, no text, scope or symbol command gets swallowed by a letter command or environment before it. A sequence that survives may be the body of any surviving document exactly if it may follow a letter command with an argument; a part of the body of a surviving document may be replaced by another surviving sequence, or cut out, exactly if what then meets may be joined.", "quantifier": "every two sequences of stage-3 chunks, every surviving stage-3 document, every part of its body, every replacement", "why_tests_cant": "Editors cut and paste; whether a pasted piece keeps its meaning depends on what it lands next to, in unboundedly many combinations.", "anchors": ["src/ast3/document.rs FromStr, Display, TryFrom<ast2::Document>", "src/ast3/mathsblock.rs from_chunks, Display", "src/ast3/paragraph.rs from_chunks", "src/ast2/document.rs FromStr", "src/ast1/document.rs FromStr"]}
{"id": "C113", "title": "Building stage-3 documents that survive saving and loading", "statement": "Which stage-3 trees survive saving and loading, node by node: a text, paragraph break, scope, command, environment, bracket formula or dollar formula can stand in a document (survives as part of its body) exactly under the stated condition on its own name, blanks and brackets, provided its children can; a sequence can exactly if its parts can and may be joined; and a document survives exactly if its three sections and the arguments of its document environment can stand in a document, body and trailing also right after a closed argument, the same blanks follow \\begin and \\end, there is no other document environment, and class and options are those of its \\documentclass commands.", "quantifier": "every stage-3 document and every stage-3 chunk of any depth, parsed or built by hand", "why_tests_cant": "Programs that generate documents build trees bottom-up from unboundedly many shapes; the rules must be exact for each constructor.", "anchors": ["src/ast3/document.rs FromStr, Display, TryFrom<ast2::Document>", "src/ast3/mathsblock.rs from_chunks, Display", "src/ast3/paragraph.rs from_chunks", "src/ast2/document.rs FromStr", "src/ast1/document.rs FromStr"]}
{"id": "C114", "title": "Going from stage 2 to stage 1 and back", "statement": "A stage-2 document converted to stage 1 (From) and back to stage 2 (TryFrom) comes back the same, apart from line numbers and from how its texts are cut up, if and only if it contains no \\begin or \\end command at any depth and the label of each of its environments, read as source text, prints as itself. Without \\begin and \\end commands the conversion back never reports an error: it returns a document, or panics on a line number. A parsed document comes back alike or there is a panic, and it comes back identical, line numbers included, if no \\begin of it has a line break in its arguments. It panics exactly if something in an environment is numbered within the lines its \\begin is printed on (for parsed documents, and for all documents in which no text follows a text).", "quantifier": "every stage-2 document of any size and depth for which the conversion to stage 1 returns, whatever its line numbers; every source text for the part on parsed documents", "why_tests_cant": "The condition is on every command and environment at any depth of arbitrary trees; both directions of an equivalence are claimed.", "anchors": ["src/ast1/document.rs From<ast2::Document>", "src/ast2/document.rs TryFrom<ast1::Document>, push_buffer", "src/ast2/environment.rs", "src/ast1/chunk.rs"]}
{"id": "C115", "title": "Going from stage 3 to stage 2 and back", "statement": "Chunks that were converted from stage 2 to stage 3, converted to stage 2 and back again, give no error: either there is a panic on a line number, or chunks come back, and these are the same apart from line numbers if and only if no formula in dollar signs, at any depth, has a piece of text (a paragraph or a paragraph break) before its last chunk. Otherwise all pieces of text of such a formula but the last are left behind in front of it and nothing else changes; there are never fewer chunks, and going a second time changes nothing more. It panics if and only if some formula in dollar signs has something in it that is not text and is numbered, at stage 2, more than one line above the closing of the formula.", "quantifier": "every sequence of stage-2 chunks, of any size, depth and numbering, that converts to stage 3 and goes back to stage 2", "why_tests_cant": "Both directions of two equivalences over arbitrary nested chunks and line numbers.", "anchors": ["src/ast3/mathsblock.rs", "src/ast3/paragraph.rs", "src/ast2/chunk.rs From<ast3::Chunk>", "src/ast2/document.rs"]}
{"id": "C116", "title": "A document going from stage 3 to stage 2 and back", "statement": "A document that was converted from stage 2 to stage 3, converted to stage 2 and back again, gives no error: the document environment is found again, and either there is a panic on a line number or a document comes back. This is the same apart from line numbers if and only if (1) no formula in dollar signs in the preamble, the arguments of the document environment and the body has a piece of text before its last chunk; (2) what follows the document environment, and formulas in it, has every run of texts and paragraph breaks cut up as one text is, because there texts that come to stand next to each other are put together; (3) the class and the options on record are the ones that the \\documentclass commands of the preamble at stage 3 name, which is the case for sure if the arguments of those commands had no maths in them, or only maths whose text is kept. Whatever comes back has the class and options that the preamble it came from names. If texts are numbered from line 1, it panics if and only if some formula in dollar signs has something in it that is numbered more than one line above its closing, where the closing is numbered with the last text of the formula, but after the document environment, where texts are put together, with its first. Once a document has gone there and back, going again changes at most the class and options on record, and after twice nothing.", "quantifier": "every stage-2 document, of any size, depth and numbering, that converts to stage 3 and goes back to stage 2 (for the rule on panics: whose texts are numbered from 1)", "why_tests_cant": "Both directions of equivalences over arbitrary documents, and a composition of two conversions over all sections of a document.", "anchors": ["src/ast3/document.rs TryFrom<ast2::Document>", "src/ast2/document.rs From<ast3::Document>", "src/ast3/mathsblock.rs"]}
{"id": "C117", "title": "What stage 3 may do to the text", "statement": "Printing what stage 3 has read gives the text of stage 2 in which characters other than dollar signs may have moved from somewhere behind a dollar sign to right before it, and backslashed brackets may have been dropped; nothing else happens to it, at any depth (for a document: the text of its sections, in which document environments before the last are gone, the blanks after the \\end of the last have become those after its \\begin, and an empty environment is added if there was none). Such a change cannot be undone by others: the text gets lighter or its dollar signs get further to the right. Hence reading and printing at stage 3, over and over, comes to an end within a number of rounds bounded by the source: a text is refused, or printed as it is, or it has not got exactly one document environment with the same blanks after \\begin and \\end (which can come up).", "quantifier": "every stage-2 chunk sequence whose maths delimiters have no arguments (in particular any that was read from a source), every source with one document environment, every number of rounds", "why_tests_cant": "A relation between two texts over all inputs and all nestings of formulas, and termination of an unbounded iteration.", "anchors": ["src/ast3/mathsblock.rs MathsBlock::from_chunks", "src/ast3/document.rs"]}
{"id": "C118", "title": "Stage 3 keeps the texts and the nodes of every level, each in order", "statement": "When stage 2 is converted to stage 3, the texts of each level (free text, paragraph breaks and the text in formulas), put together, are the same up to dollar signs; and the scopes, commands and environments of each level, formulas looked through, are the same, in the same order, with the same labels, arguments, kinds of brackets and blanks, at every depth, except that \\(, \\), \\[ and \\] are gone. Which nodes stand before which of the text may change in one way only: at any depth, a character may have moved to before nodes it came after, never the other way, so what was before the k-th node is still there, before anything added. This holds for what is before, in and after the document environment that counts. Going back to stage 2 moves nothing, so going there and back (or forth and back) moves texts forward only.", "quantifier": "every sequence of stage-2 chunks that is converted, every source, every sequence of stage-3 chunks and every stage-3 document", "why_tests_cant": "A structural correspondence over all inputs and depths, formulas included; tests compare a few results.", "anchors": ["src/ast3/mathsblock.rs MathsBlock::from_chunks", "src/ast3/paragraph.rs", "src/ast3/document.rs", "src/ast3/chunk.rs into_chunks", "src/ast2/document.rs From<ast3::Document>"]}
{"id": "C119", "title": "Which characters get lost or added on the way to stage 3", "statement": "Take any source that stage 3 accepts and any character that is no bracket and no backslash. What is printed at stage 3 contains it as often as the source does outside comments, apart from exactly three things: the characters of the document environments that are followed by a later one are lost; the blanks after the \\end of the last one become those after its \\begin; and an empty document environment is added if there is none. So with exactly one document environment no visible character is lost, added or repeated.", "quantifier": "every source accepted at stage 3, every character, any number of document environments", "why_tests_cant": "A conservation law over all inputs, through all three stages; no finite set of examples implies it.", "anchors": ["src/ast1/document.rs FromStr", "src/ast2/document.rs TryFrom", "src/ast3/document.rs TryFrom, Display", "src/ast3/mathsblock.rs from_chunks"]}
{"id": "C120", "title": "Formulas nest directly at most three deep", "statement": "Whatever stage 3 produces: nowhere, at any depth, is a formula within another one with the same mark (\\(..\\), \\[..\\], or dollar signs, where $..$ and $$..$$ count as the same) unless there is a scope, a command or an environment in between. So at most three formulas are directly within each other, and each of the six orders of three does occur.", "quantifier": "every stage-2 document and every chunk sequence, parsed or built through the API, with any nesting of formulas, scopes, commands and environments", "why_tests_cant": "An invariant of every result at every depth; it depends on how dropped inner brackets, texts split at dollar signs and recursive conversions of the buffered content interact.", "anchors": ["src/ast3/mathsblock.rs from_chunks", "src/ast3/document.rs TryFrom"]}
{"id": "C121", "title": "Every dollar sign marks a formula", "statement": "Count dollar signs level by level: each scope, argument and environment is a level of its own, formulas are not. If stage 3 accepts chunks, the dollar signs in their texts are exactly those that mark the formulas of the result at that level: two for each $..$ and four for each $$..$$, also for those inside other formulas. So every level of an accepted document, at any depth, also in document environments that are overwritten, has an even number of dollar signs, and a source with an odd number at any level is rejected, whatever the other levels hold. In particular a source without backslashes and with an odd number of dollar signs outside comments is rejected.", "quantifier": "every stage-2 document and every chunk sequence, parsed or built through the API; dollar signs in the arguments of \\(, \\), \\[ and \\] (which only built documents can have) excepted", "why_tests_cant": "An exact count over all inputs and all depths; formulas run over several texts and texts move out of formulas.", "anchors": ["src/ast3/mathsblock.rs from_chunks", "src/ast3/document.rs TryFrom"]}
{"id": "C122", "title": "What dollar formulas look like", "statement": "Whatever stage 3 produces: in every dollar formula, at any depth, texts and paragraph breaks come last, after all commands, scopes, environments and bracket formulas; the bracket formulas directly in it (and those directly in these) have no texts at all; and an inline dollar formula is never empty. A document built otherwise through the API is never what a source is read as, so it does not survive saving and loading.", "quantifier": "every stage-2 document and every chunk sequence, parsed or built through the API, with any nesting", "why_tests_cant": "An invariant of every result at every depth, contrary to what the types allow and to what one expects of $a\\alpha b$; no finite set of examples shows that no input breaks it.", "anchors": ["src/ast3/mathsblock.rs from_chunks", "src/ast3/document.rs TryFrom"]}
{"id": "C123", "title": "How much deeper stage 3 nests than stage 2", "statement": "If scopes, arguments and environments are nested n deep, what stage 3 makes of them is nested at most 4n + 3 deep, so at most 4n + 4 calls are nested in each other, however many formulas and dollars there are; and for every n there are chunks for which it is exactly that. A document body is nested at most 4n - 1 deep.", "quantifier": "every chunk sequence nested n deep, every n, every document", "why_tests_cant": "The stack a conversion needs depends on the depth of the result: a bound by the depth of the input, for every input and every depth, is no matter of examples.", "anchors": ["src/ast3/mathsblock.rs from_chunks", "src/ast3/document.rs TryFrom"]}
{"id": "C124", "title": "Stage 3 does not nest less than stage 2", "statement": "If no maths delimiter has arguments, which holds for everything read from a source, what stage 3 makes of chunks is nested at least as deep as they are, so it needs at least as many nested calls. For chunks built through the API with arguments on a delimiter it is not so: the arguments are lost with all that is nested in them.", "quantifier": "every chunk sequence, every source", "why_tests_cant": "Nothing nested may be lost by any combination of formulas, scopes and environments; examples show single cases only.", "anchors": ["src/ast3/mathsblock.rs from_chunks"]}
{"id": "C125", "title": "Stage 2 can nest as deep as one likes", "statement": "No bound on the depth of a stage-1 document bounds the depth of what stage 2 makes of it, nor the calls it needs: n times \\begin{a} and n times \\end{a} is nested one deep, whatever n is, and becomes n environments in each other, with more than n nested calls.", "quantifier": "every n", "why_tests_cant": "An unbounded family: no finite number of examples shows that there is no bound.", "anchors": ["src/ast2/document.rs TryFrom", "src/ast2/environment.rs"]}
